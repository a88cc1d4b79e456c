import Verif.Spec.TypeCheck
import Verif.Lemmas.UnifyOps
import Verif.Lemmas.ExprSound
import Verif.Props.Shadow

/-! What the inference of the type checker establishes about the values of patterns and expressions. -/

namespace Doodle
namespace Tc

open Num (MachineRep BitWidth NumRep)

/-- a computation of the type checker that keeps what is recorded, with a fact about its result and one about
every later solution -/
def Yields {α : Type} (x : TcM α) (F : α → Prop) (P : α → Assignment → Prop) : Prop :=
  ∀ s a s', Good s → x s = .ok (a, s') → F a ∧ Learns s s' (P a)

variable {α β : Type}

theorem Yields.bind {x : TcM α} {f : α → TcM β} {F : α → Prop} {G : β → Prop} {P : α → Assignment → Prop}
    {Q : α → β → Assignment → Prop} (hx : Yields x F P) (hf : ∀ a, F a → Yields (f a) G (Q a)) :
    Yields (x >>= f) G (fun b σ => ∃ a, P a σ ∧ Q a b σ) := by
  intro s b s' hg h
  rw [TcM.bind_eq_ok] at h
  obtain ⟨a, s1, h1, h2⟩ := h
  obtain ⟨ha, l1⟩ := hx s a s1 hg h1
  obtain ⟨hb, l2⟩ := hf a ha s1 b s' l1.good h2
  exact ⟨hb, l1.trans l2 fun σ p q => ⟨a, p, q⟩⟩

theorem Yields.mono {x : TcM α} {F G : α → Prop} {P Q : α → Assignment → Prop} (hx : Yields x F P)
    (hF : ∀ a, F a → G a) (h : ∀ a σ, F a → P a σ → Q a σ) : Yields x G Q := fun s a s' hg hs =>
  have ⟨ha, l⟩ := hx s a s' hg hs
  ⟨hF a ha, l.weaken fun σ _ _ p => h a σ ha p⟩

theorem Yields.to {x : TcM α} {P Q : α → Assignment → Prop} (hx : Yields x (fun _ => True) P)
    (h : ∀ a σ, P a σ → Q a σ) : Yields x (fun _ => True) Q := hx.mono (fun _ h => h) fun a σ _ p => h a σ p

theorem yields_pure {a : α} {F : α → Prop} (h : F a) : Yields (pure a) F (fun b _ => b = a) := by
  intro s b s' hg hs
  obtain ⟨rfl, rfl⟩ := TcM.pure_eq_ok.mp hs
  exact ⟨h, (Learns.refl hg).weaken fun _ _ _ _ => rfl⟩

theorem yields_ret {a : α} : Yields (pure a) (fun _ => True) (fun b _ => b = a) := yields_pure trivial

theorem yields_fail {F : α → Prop} {P : α → Assignment → Prop} : Yields TcM.fail F P := by
  intro s b s' hg hs; cases hs

theorem yields_panic {F : α → Prop} {P : α → Assignment → Prop} : Yields TcM.panic F P := by
  intro s b s' hg hs; cases hs

theorem yields_ofPanicky {x : Panicky α} : Yields (TcM.ofPanicky x) (fun a => x = .ok a) (fun _ _ => True) := by
  intro s b s' hg hs
  cases x with
  | panic => cases hs
  | ok a => cases hs; exact ⟨rfl, Learns.refl hg⟩

variable {o : Orders} {n : Nat}

theorem yields_newVar : Yields newVar (fun _ => True) (fun _ _ => True) := fun s a s' hg hs =>
  ⟨trivial, (newVar_learns hg hs).2.2.2⟩

theorem yields_pair (ho : o.Lists) {v w : Nat} :
    Yields (unifyVarPair o n v w) (fun _ => True) (fun _ σ => σ v = σ w) := fun s a s' hg hs =>
  ⟨trivial, pair_learns ho hg hs⟩

theorem yields_varU (ho : o.Lists) {v : Nat} {t : UType} (hf : t.Firm) :
    Yields (unifyVarUtype o n v t) (fun _ => True) (fun _ σ => σ v = t.inst σ) := fun s a s' hg hs =>
  ⟨trivial, varU_learns ho hg hf hs⟩

theorem yields_varC (ho : o.Lists) {v : Nat} {c : UConstraint} (hc : c.Ok) :
    Yields (unifyVarConstraint o n v c) (fun _ => True) (fun _ σ => c.Holds σ (σ v)) := fun s a s' hg hs =>
  ⟨trivial, varC_learns ho hg hc hs⟩

theorem yields_utype (ho : o.Lists) {t u : UType} (h1 : t.Firm) (h2 : u.Firm) :
    Yields (unifyUtype o n t u) (fun r => r.Firm) (fun _ σ => t.inst σ = u.inst σ) := fun s a s' hg hs =>
  have ⟨hf, l⟩ := utype_learns ho hg h1 h2 hs
  ⟨hf, l.weaken fun _ _ _ p => p.1⟩

theorem yields_baseset (ho : o.Lists) {v : Nat} {bs : BaseSet} :
    Yields (unifyVarBaseset o n v bs) (fun _ => True) (fun _ σ => ∃ b, σ v = .base b ∧ bs.contains b = .ok true) :=
  fun s a s' hg hs => ⟨trivial, baseset_learns ho hg hs⟩

theorem yields_intset (ho : o.Lists) {v : Nat} {is : IntSet} :
    Yields (unifyVarIntset o n v is) (fun _ => True) (fun _ σ => ∃ r, σ v = .ofMachine r ∧ is.contains r = true) :=
  fun s a s' hg hs => ⟨trivial, intset_learns ho hg hs⟩

theorem yields_init (ho : o.Lists) {t : UType} (hf : t.Firm) (hv : ¬ t.IsVar) :
    Yields (initVarSimple o n t) (fun _ => True) (fun v σ => σ v = t.inst σ) := fun s a s' hg hs =>
  ⟨trivial, initVarSimple_learns ho hg hf hv hs⟩

theorem yields_index (ho : o.Lists) {tv ix v : Nat} :
    Yields (unifyVarProjIndex o n tv ix v) (fun _ => True) (fun _ σ => ∃ Us, σ tv = .tuple Us ∧ Us[ix]? = some (σ v)) :=
  fun s a s' hg hs => ⟨trivial, projIndex_learns ho hg hs⟩

theorem yields_field (ho : o.Lists) {k rv v : Nat} {l : String} :
    Yields (unifyVarProjField o n k rv l v) (fun _ => True)
      (fun _ σ => ∃ Fs, σ rv = .record Fs ∧ TMap.get l Fs = some (σ v)) :=
  fun s a s' hg hs => ⟨trivial, projField_learns ho hg hs⟩

theorem yields_param (ho : o.Lists) {v w : Nat} :
    Yields (unifyVarProjParam o n v w) (fun _ => True) (fun _ σ => σ v = .option (σ w)) := fun s a s' hg hs =>
  ⟨trivial, projParam_learns ho hg hs⟩

theorem yields_elem (ho : o.Lists) {v w : Nat} :
    Yields (unifyVarProjElem o n v w) (fun _ => True) (fun _ σ => σ v = .seq (σ w)) := fun s a s' hg hs =>
  ⟨trivial, projElem_learns ho hg hs⟩

theorem yields_variant (ho : o.Lists) {v : Nat} {l : String} {t : UType} (hf : t.Firm) :
    Yields (addUvarVariant o n v l t) (fun _ => True) (fun _ σ => HasVariant σ l t (σ v)) := fun s a s' hg hs =>
  ⟨trivial, addVariant_learns ho hg hf hs⟩

/-! ### annotations -/

mutual
theorem firm_ofValueType : ∀ {t : ValueType} {u : UType}, t.Solid → UType.ofValueType t = some u →
    u.Firm ∧ ¬ u.IsVar ∧ ∀ σ, u.inst σ = t
  | .any, u, hs, h => by simp only [ValueType.Solid] at hs
  | .empty, u, hs, h => by simp only [ValueType.Solid] at hs
  | .numericHole, u, hs, h => by simp only [ValueType.Solid] at hs
  | .union _, u, hs, h => by simp only [UType.ofValueType, reduceCtorEq] at h
  | .viewObj, u, hs, h => by
    simp only [UType.ofValueType, Option.some.injEq] at h; subst h; exact ⟨trivial, id, fun _ => rfl⟩
  | .base _, u, hs, h => by
    simp only [UType.ofValueType, Option.some.injEq] at h; subst h; exact ⟨trivial, id, fun _ => rfl⟩
  | .signed _, u, hs, h => by
    simp only [UType.ofValueType, Option.some.injEq] at h; subst h
    exact ⟨trivial, id, fun _ => by simp [UType.inst, ValueType.ofMachine]⟩
  | .phantom t, u, hs, h => by
    simp only [ValueType.Solid] at hs
    simp only [UType.ofValueType, Option.map_eq_some_iff] at h
    obtain ⟨u', h, rfl⟩ := h
    obtain ⟨h1, _, h2⟩ := firm_ofValueType hs h
    exact ⟨h1, id, fun σ => by simp only [UType.inst, h2 σ]⟩
  | .tuple ts, u, hs, h => by
    simp only [ValueType.Solid] at hs
    simp only [UType.ofValueType, Option.map_eq_some_iff] at h
    obtain ⟨u', h, rfl⟩ := h
    obtain ⟨h1, h2⟩ := firm_ofValueTypes hs h
    exact ⟨h1, id, fun σ => by simp only [UType.inst, h2 σ]⟩
  | .record fs, u, hs, h => by
    simp only [ValueType.Solid] at hs
    simp only [UType.ofValueType, Option.map_eq_some_iff] at h
    obtain ⟨u', h, rfl⟩ := h
    obtain ⟨h1, h2⟩ := firm_ofValueFields hs h
    exact ⟨h1, id, fun σ => by simp only [UType.inst, h2 σ]⟩
  | .option t, u, hs, h => by
    simp only [ValueType.Solid] at hs
    simp only [UType.ofValueType, Option.map_eq_some_iff] at h
    obtain ⟨u', h, rfl⟩ := h
    obtain ⟨h1, _, h2⟩ := firm_ofValueType hs h
    exact ⟨h1, id, fun σ => by simp only [UType.inst, h2 σ]⟩
  | .seq t, u, hs, h => by
    simp only [ValueType.Solid] at hs
    simp only [UType.ofValueType, Option.map_eq_some_iff] at h
    obtain ⟨u', h, rfl⟩ := h
    obtain ⟨h1, _, h2⟩ := firm_ofValueType hs h
    exact ⟨h1, id, fun σ => by simp only [UType.seqOf, UType.inst, h2 σ]⟩

theorem firm_ofValueTypes : ∀ {ts : List ValueType} {us : List UType}, ValueType.SolidList ts →
    UType.ofValueTypes ts = some us → UType.FirmList us ∧ ∀ σ, UType.instList σ us = ts
  | [], us, hs, h => by
    simp only [UType.ofValueTypes, Option.some.injEq] at h; subst h; exact ⟨trivial, fun _ => rfl⟩
  | t :: ts, us, hs, h => by
    simp only [ValueType.SolidList] at hs
    simp only [UType.ofValueTypes] at h
    cases hu : UType.ofValueType t with
    | none => rw [hu] at h; simp only [reduceCtorEq] at h
    | some u =>
      rw [hu] at h
      simp only [Option.map_eq_some_iff] at h
      obtain ⟨us', h, rfl⟩ := h
      obtain ⟨h1, _, h2⟩ := firm_ofValueType hs.1 hu
      obtain ⟨h3, h4⟩ := firm_ofValueTypes hs.2 h
      exact ⟨⟨h1, h3⟩, fun σ => by simp only [UType.instList, h2 σ, h4 σ]⟩

theorem firm_ofValueFields : ∀ {ts : List (String × ValueType)} {us : List (String × UType)},
    ValueType.SolidFields ts → UType.ofValueFields ts = some us →
    UType.FirmFields us ∧ ∀ σ, UType.instFields σ us = ts
  | [], us, hs, h => by
    simp only [UType.ofValueFields, Option.some.injEq] at h; subst h; exact ⟨trivial, fun _ => rfl⟩
  | (l, t) :: ts, us, hs, h => by
    simp only [ValueType.SolidFields] at hs
    simp only [UType.ofValueFields] at h
    cases hu : UType.ofValueType t with
    | none => rw [hu] at h; simp only [reduceCtorEq] at h
    | some u =>
      rw [hu] at h
      simp only [Option.map_eq_some_iff] at h
      obtain ⟨us', h, rfl⟩ := h
      obtain ⟨h1, _, h2⟩ := firm_ofValueType hs.1 hu
      obtain ⟨h3, h4⟩ := firm_ofValueFields hs.2 h
      exact ⟨⟨h1, h3⟩, fun σ => by simp only [UType.instFields, h2 σ, h4 σ]⟩
end

mutual
/-- a union-free annotation is understood -/
theorem rigid_ofValueType : ∀ {t : ValueType}, t.Rigid → ∃ u, UType.ofValueType t = some u
  | .any, h => nomatch h
  | .empty, h => nomatch h
  | .numericHole, h => nomatch h
  | .union _, h => nomatch h
  | .viewObj, _ => ⟨_, rfl⟩
  | .base _, _ => ⟨_, rfl⟩
  | .signed _, _ => ⟨_, rfl⟩
  | .phantom t, h => by
    simp only [ValueType.Rigid] at h
    obtain ⟨u, hu⟩ := rigid_ofValueType h
    exact ⟨_, by simp only [UType.ofValueType, hu, Option.map_some]; rfl⟩
  | .tuple ts, h => by
    simp only [ValueType.Rigid] at h
    obtain ⟨u, hu⟩ := rigid_ofValueTypes h
    exact ⟨_, by simp only [UType.ofValueType, hu, Option.map_some]; rfl⟩
  | .record fs, h => by
    simp only [ValueType.Rigid] at h
    obtain ⟨u, hu⟩ := rigid_ofValueFields h
    exact ⟨_, by simp only [UType.ofValueType, hu, Option.map_some]; rfl⟩
  | .seq t, h => by
    simp only [ValueType.Rigid] at h
    obtain ⟨u, hu⟩ := rigid_ofValueType h
    exact ⟨_, by simp only [UType.ofValueType, hu, Option.map_some]; rfl⟩
  | .option t, h => by
    simp only [ValueType.Rigid] at h
    obtain ⟨u, hu⟩ := rigid_ofValueType h
    exact ⟨_, by simp only [UType.ofValueType, hu, Option.map_some]; rfl⟩

theorem rigid_ofValueTypes : ∀ {ts : List ValueType}, ValueType.RigidList ts → ∃ us, UType.ofValueTypes ts = some us
  | [], _ => ⟨_, rfl⟩
  | t :: ts, h => by
    simp only [ValueType.RigidList] at h
    obtain ⟨u, hu⟩ := rigid_ofValueType h.1
    obtain ⟨us, hus⟩ := rigid_ofValueTypes h.2
    exact ⟨_, by simp only [UType.ofValueTypes, hu, hus, Option.map_some]; rfl⟩

theorem rigid_ofValueFields : ∀ {ts : List (String × ValueType)}, ValueType.RigidFields ts →
    ∃ us, UType.ofValueFields ts = some us
  | [], _ => ⟨_, rfl⟩
  | (l, t) :: ts, h => by
    simp only [ValueType.RigidFields] at h
    obtain ⟨u, hu⟩ := rigid_ofValueType h.1
    obtain ⟨us, hus⟩ := rigid_ofValueFields h.2
    exact ⟨_, by simp only [UType.ofValueFields, hu, hus, Option.map_some]; rfl⟩
end

mutual
theorem ValueType.Rigid.solid : ∀ {t : ValueType}, t.Rigid → t.Solid
  | .any, h => nomatch h
  | .empty, h => nomatch h
  | .numericHole, h => nomatch h
  | .union _, h => nomatch h
  | .viewObj, _ => trivial
  | .base _, _ => trivial
  | .signed _, _ => trivial
  | .phantom t, h => by simp only [ValueType.Rigid] at h; simp only [ValueType.Solid]; exact ValueType.Rigid.solid h
  | .tuple ts, h => by simp only [ValueType.Rigid] at h; simp only [ValueType.Solid]; exact ValueType.Rigid.solidList h
  | .record fs, h => by simp only [ValueType.Rigid] at h; simp only [ValueType.Solid]; exact ValueType.Rigid.solidFields h
  | .seq t, h => by simp only [ValueType.Rigid] at h; simp only [ValueType.Solid]; exact ValueType.Rigid.solid h
  | .option t, h => by simp only [ValueType.Rigid] at h; simp only [ValueType.Solid]; exact ValueType.Rigid.solid h
theorem ValueType.Rigid.solidList : ∀ {ts : List ValueType}, ValueType.RigidList ts → ValueType.SolidList ts
  | [], _ => trivial
  | t :: ts, h => by
    simp only [ValueType.RigidList] at h
    exact ⟨ValueType.Rigid.solid h.1, ValueType.Rigid.solidList h.2⟩
theorem ValueType.Rigid.solidFields : ∀ {ts : List (String × ValueType)}, ValueType.RigidFields ts →
    ValueType.SolidFields ts
  | [], _ => trivial
  | (_, t) :: ts, h => by
    simp only [ValueType.RigidFields] at h
    exact ⟨ValueType.Rigid.solid h.1, ValueType.Rigid.solidFields h.2⟩
end

mutual
theorem yields_varV (ho : o.Lists) : ∀ (t : ValueType) (v : Nat), t.Solid →
    Yields (unifyVarValueType o n t v) (fun _ => True) (fun _ σ => t.Rigid → σ v = t)
  | .any, v, hs => by simp only [ValueType.Solid] at hs
  | .empty, v, hs => by simp only [ValueType.Solid] at hs
  | .numericHole, v, hs => by simp only [ValueType.Solid] at hs
  | .viewObj, v, hs => by
    simp only [unifyVarValueType]
    exact (yields_varU ho (t := .viewObj) trivial).to fun _ σ h _ => h
  | .base b, v, hs => by
    simp only [unifyVarValueType]
    exact (yields_varU ho (t := .base b) trivial).to fun _ σ h _ => h
  | .signed w, v, hs => by
    simp only [unifyVarValueType]
    exact (yields_varU ho (t := .int ⟨true, w⟩) trivial).to fun _ σ h _ => by
      rw [h]; simp [UType.inst, ValueType.ofMachine]
  | .union bs, v, hs => by
    simp only [ValueType.Solid] at hs
    simp only [unifyVarValueType]
    exact (yields_branchTypes ho bs v hs).to fun _ σ _ h => nomatch h
  | .record fs, v, hs => by
    simp only [ValueType.Solid] at hs
    simp only [unifyVarValueType]
    cases h : UType.ofValueFields fs with
    | some us =>
      obtain ⟨h1, h2⟩ := firm_ofValueFields hs h
      exact (yields_varU ho (t := .record us) h1).to fun _ σ h _ => by rw [h]; simp only [UType.inst, h2 σ]
    | none =>
      exact (yields_fieldTypes ho fs v hs).to fun _ σ _ hr => by
        simp only [ValueType.Rigid] at hr
        obtain ⟨us, hus⟩ := rigid_ofValueFields hr
        rw [h] at hus; cases hus
  | .tuple ts, v, hs => by
    simp only [ValueType.Solid] at hs
    simp only [unifyVarValueType]
    cases h : UType.ofValueTypes ts with
    | some us =>
      obtain ⟨h1, h2⟩ := firm_ofValueTypes hs h
      exact (yields_varU ho (t := .tuple us) h1).to fun _ σ h _ => by rw [h]; simp only [UType.inst, h2 σ]
    | none =>
      exact (yields_elemTypes ho ts 0 v hs).to fun _ σ _ hr => by
        simp only [ValueType.Rigid] at hr
        obtain ⟨us, hus⟩ := rigid_ofValueTypes hr
        rw [h] at hus; cases hus
  | .seq t, v, hs => by
    simp only [ValueType.Solid] at hs
    simp only [unifyVarValueType]
    cases h : UType.ofValueType t with
    | some u =>
      obtain ⟨h1, _, h2⟩ := firm_ofValueType hs h
      exact (yields_varU ho (t := .seqOf u) h1).to fun _ σ h _ => by rw [h]; simp only [UType.seqOf, UType.inst, h2 σ]
    | none =>
      refine (yields_newVar.bind fun w _ => (yields_elem ho).bind fun _ _ => yields_varV ho t w hs).to ?_
      rintro _ σ ⟨w, _, _, h1, h2⟩ hr
      rw [h1, h2 hr]
  | .option t, v, hs => by
    simp only [ValueType.Solid] at hs
    simp only [unifyVarValueType]
    cases h : UType.ofValueType t with
    | some u =>
      obtain ⟨h1, _, h2⟩ := firm_ofValueType hs h
      exact (yields_varU ho (t := .option u) h1).to fun _ σ h _ => by rw [h]; simp only [UType.inst, h2 σ]
    | none =>
      refine (yields_newVar.bind fun w _ => (yields_param ho).bind fun _ _ => yields_varV ho t w hs).to ?_
      rintro _ σ ⟨w, _, _, h1, h2⟩ hr
      rw [h1, h2 hr]
  | .phantom t, v, hs => by
    simp only [ValueType.Solid] at hs
    simp only [unifyVarValueType]
    cases h : UType.ofValueType t with
    | some u =>
      obtain ⟨h1, _, h2⟩ := firm_ofValueType hs h
      exact (yields_varU ho (t := .phantom u) h1).to fun _ σ h _ => by rw [h]; simp only [UType.inst, h2 σ]
    | none => exact yields_panic

theorem yields_branchTypes (ho : o.Lists) : ∀ (bs : List (String × ValueType)) (v : Nat), ValueType.SolidFields bs →
    Yields (unifyVarBranches o n bs v) (fun _ => True) (fun _ _ => True)
  | [], v, hs => by simp only [unifyVarBranches]; exact yields_ret.to fun _ _ _ => trivial
  | (l, t) :: bs, v, hs => by
    simp only [ValueType.SolidFields] at hs
    simp only [unifyVarBranches]
    cases h : UType.ofValueType t with
    | some u =>
      obtain ⟨h1, _, h2⟩ := firm_ofValueType hs.1 h
      exact ((yields_variant ho h1).bind fun _ _ => yields_branchTypes ho bs v hs.2).to fun _ _ _ => trivial
    | none =>
      exact (yields_newVar.bind fun w _ => (yields_varV ho t w hs.1).bind fun _ _ =>
        (yields_variant ho (t := .var w) trivial).bind fun _ _ => yields_branchTypes ho bs v hs.2).to fun _ _ _ => trivial

theorem yields_fieldTypes (ho : o.Lists) : ∀ (fs : List (String × ValueType)) (v : Nat), ValueType.SolidFields fs →
    Yields (unifyVarFieldTypes o n fs v) (fun _ => True) (fun _ _ => True)
  | [], v, hs => by simp only [unifyVarFieldTypes]; exact yields_ret.to fun _ _ _ => trivial
  | (l, t) :: fs, v, hs => by
    simp only [ValueType.SolidFields] at hs
    simp only [unifyVarFieldTypes]
    exact (yields_newVar.bind fun w _ => (yields_field ho).bind fun _ _ => (yields_varV ho t w hs.1).bind fun _ _ =>
      yields_fieldTypes ho fs v hs.2).to fun _ _ _ => trivial

theorem yields_elemTypes (ho : o.Lists) : ∀ (ts : List ValueType) (i v : Nat), ValueType.SolidList ts →
    Yields (unifyVarElemTypes o n ts i v) (fun _ => True) (fun _ _ => True)
  | [], i, v, hs => by simp only [unifyVarElemTypes]; exact yields_ret.to fun _ _ _ => trivial
  | t :: ts, i, v, hs => by
    simp only [ValueType.SolidList] at hs
    simp only [unifyVarElemTypes]
    exact (yields_newVar.bind fun w _ => (yields_index ho).bind fun _ _ => (yields_varV ho t w hs.1).bind fun _ _ =>
      yields_elemTypes ho ts (i + 1) v hs.2).to fun _ _ _ => trivial
end

/-! ### patterns -/

/-- matching extends what holds of the bindings and the scope -/
def PatSound (K : Slack) (σ : Assignment) (p : Pattern) (T : ValueType) (sc sc' : UScope) : Prop :=
  ∀ (Q : List (String × Value) → UScope → Prop),
    (∀ bs sc name v w, Q bs sc → v.HasType K (σ w) → Q (bs ++ [(name, v)]) ((name, w) :: sc)) →
    ∀ v bs bs', p.matchesInner v bs = some bs' → v.HasType K T → Q bs sc → Q bs' sc'

theorem matches_flat {p : Pattern} {v : Value} {bs bs' : List (String × Value)}
    (hp : p.matchesInner v bs = if v.matchesFlat p then some bs else none)
    (h : p.matchesInner v bs = some bs') : bs = bs' := by
  rw [hp] at h
  split at h
  · exact Option.some.inj h
  · cases h

set_option maxHeartbeats 1000000 in
mutual
theorem yields_pattern (ho : o.Lists) {K : Slack} : ∀ (p : Pattern) (sc : UScope),
    Yields (inferPattern o n p sc) (fun _ => True) (fun r σ => PatSound K σ p (σ r.1) sc r.2)
  | .binding name, sc => by
    simp only [inferPattern]
    refine (yields_newVar.bind fun v _ => yields_ret).to ?_
    rintro _ σ ⟨v, _, rfl⟩ Q hQ x bs bs' hm hx hb
    simp only [Pattern.matchesInner, Option.some.injEq] at hm
    subst hm
    exact hQ bs sc name x v hb hx
  | .wildcard, sc => by
    simp only [inferPattern]
    refine (yields_newVar.bind fun v _ => yields_ret).to ?_
    rintro _ σ ⟨v, _, rfl⟩ Q hQ x bs bs' hm hx hb
    simp only [Pattern.matchesInner, Option.some.injEq] at hm
    subst hm
    exact hb
  | .bool b, sc => by
    simp only [inferPattern]
    refine ((yields_init ho (t := .base .bool) trivial id).bind fun v _ => yields_ret).to ?_
    rintro _ σ ⟨v, _, rfl⟩ Q hQ x bs bs' hm hx hb
    unfold Pattern.matchesInner at hm
    split at hm <;> simp only [reduceCtorEq, Option.some.injEq] at hm
    subst hm; exact hb
  | .lit w m, sc => by
    simp only [inferPattern]
    refine ((yields_init ho (t := .base (.num w)) trivial id).bind fun v _ => yields_ret).to ?_
    rintro _ σ ⟨v, _, rfl⟩ Q hQ x bs bs' hm hx hb
    unfold Pattern.matchesInner at hm
    split at hm <;> simp only [reduceCtorEq, Option.some.injEq] at hm
    subst hm; exact hb
  | .int b, sc => by
    simp only [inferPattern]
    refine (yields_newVar.bind fun v _ => (yields_baseset ho).bind fun _ _ => yields_ret).to ?_
    rintro _ σ ⟨v, _, _, _, rfl⟩ Q hQ x bs bs' hm hx hb
    unfold Pattern.matchesInner at hm
    split at hm <;> simp only [reduceCtorEq, Option.some.injEq] at hm
    subst hm; exact hb
  | .zConst z, sc => by
    simp only [inferPattern]
    refine (yields_newVar.bind fun v _ => yields_ofPanicky.bind fun s _ => (yields_intset ho).bind fun _ _ => yields_ret).to ?_
    rintro _ σ ⟨v, _, _, _, _, _, rfl⟩ Q hQ x bs bs' hm hx hb
    unfold Pattern.matchesInner at hm
    split at hm <;> simp only [reduceCtorEq, Option.some.injEq] at hm
    subst hm; exact hb
  | .zRange z, sc => by
    simp only [inferPattern]
    refine (yields_newVar.bind fun v _ => yields_ofPanicky.bind fun s _ => (yields_intset ho).bind fun _ _ => yields_ret).to ?_
    rintro _ σ ⟨v, _, _, _, _, _, rfl⟩ Q hQ x bs bs' hm hx hb
    unfold Pattern.matchesInner at hm
    split at hm <;> simp only [reduceCtorEq, Option.some.injEq] at hm
    subst hm; exact hb
  | .char c, sc => by
    simp only [inferPattern]
    refine ((yields_init ho (t := .base .char) trivial id).bind fun v _ => yields_ret).to ?_
    rintro _ σ ⟨v, _, rfl⟩ Q hQ x bs bs' hm hx hb
    unfold Pattern.matchesInner at hm
    split at hm <;> simp only [reduceCtorEq, Option.some.injEq] at hm
    subst hm; exact hb
  | .tuple ps, sc => by
    simp only [inferPattern]
    refine (yields_newVar.bind fun v _ => (yields_patterns ho (K := K) ps sc).bind fun r hr =>
      (yields_varU ho (t := .tuple r.1) hr).bind fun _ _ => yields_ret).to ?_
    rintro _ σ ⟨v, _, r, hr, _, hv, rfl⟩ Q hQ x bs bs' hm hx hb
    dsimp only at hx ⊢
    rw [hv] at hx
    cases x <;> simp only [Pattern.matchesInner, Value.matchesFlat, Bool.false_eq_true, if_false,
      reduceCtorEq] at hm
    · rename_i vs
      split at hm
      · simp only [Value.HasType, UType.inst, ValueType.tuple.injEq] at hx
        obtain ⟨ts', e, hx⟩ := hx
        subst e
        exact hr Q hQ vs bs bs' hm hx hb
      · simp only [reduceCtorEq] at hm
  | .variant l p, sc => by
    simp only [inferPattern]
    refine (yields_newVar.bind fun v _ => (yields_pattern ho (K := K) p sc).bind fun r _ =>
      (yields_variant ho (t := .var r.1) trivial).bind fun _ _ => yields_ret).to ?_
    rintro _ σ ⟨v, _, r, hr, _, ⟨cs, U, hv, hg, rfl⟩, rfl⟩ Q hQ x bs bs' hm hx hb
    dsimp only at hx ⊢
    rw [hv] at hx
    cases x <;> simp only [Pattern.matchesInner, Value.matchesFlat, Bool.false_eq_true, if_false,
      reduceCtorEq] at hm
    · rename_i l' y
      split at hm
      · rename_i e
        subst e
        simp only [Value.HasType, ValueType.union.injEq] at hx
        obtain ⟨cs', u, e, hg', hx⟩ := hx
        subst e
        rw [hg] at hg'
        cases hg'
        exact hr Q hQ y bs bs' hm hx hb
      · simp only [reduceCtorEq] at hm
  | .seq ps, sc => by
    simp only [inferPattern]
    refine (yields_newVar.bind fun v _ => yields_newVar.bind fun e _ => (yields_elems ho (K := K) ps e sc).bind fun r _ =>
      (yields_varU ho (t := .seqOf (.var e)) trivial).bind fun _ _ => yields_ret).to ?_
    rintro _ σ ⟨v, _, e, _, r, hr, _, hv, rfl⟩ Q hQ x bs bs' hm hx hb
    dsimp only at hx ⊢
    rw [hv] at hx
    cases x <;> simp only [Pattern.matchesInner, Value.matchesFlat, Bool.false_eq_true, if_false,
      reduceCtorEq] at hm
    · rename_i vs
      split at hm
      · obtain ⟨u, e', hx⟩ := Value.hasType_seq.mp hx
        cases e'
        exact hr Q hQ vs.iter bs bs' hm hx hb (by rw [‹ps.length = _›]; exact (SeqKind.iter_length vs).symm)
      · simp only [reduceCtorEq] at hm
  | .optNone, sc => by
    simp only [inferPattern]
    refine (yields_newVar.bind fun v _ => yields_newVar.bind fun w _ =>
      (yields_varU ho (t := .option (.var w)) trivial).bind fun _ _ => yields_ret).to ?_
    rintro _ σ ⟨v, _, w, _, _, hv, rfl⟩ Q hQ x bs bs' hm hx hb
    cases x <;> simp only [Pattern.matchesInner, Value.matchesFlat, Bool.false_eq_true, if_false,
        reduceCtorEq, Option.some.injEq] at hm
    subst hm; exact hb
  | .optSome p, sc => by
    simp only [inferPattern]
    refine (yields_newVar.bind fun v _ => (yields_pattern ho (K := K) p sc).bind fun r _ =>
      (yields_varU ho (t := .option (.var r.1)) trivial).bind fun _ _ => yields_ret).to ?_
    rintro _ σ ⟨v, _, r, hr, _, hv, rfl⟩ Q hQ x bs bs' hm hx hb
    dsimp only at hx ⊢
    rw [hv] at hx
    cases x <;> simp only [Pattern.matchesInner, Value.matchesFlat, Bool.false_eq_true, if_false,
        reduceCtorEq] at hm
    rename_i y
    simp only [Value.HasType, UType.inst, ValueType.option.injEq] at hx
    obtain ⟨u, e, hx⟩ := hx
    subst e
    exact hr Q hQ y bs bs' hm hx hb

theorem yields_patterns (ho : o.Lists) {K : Slack} : ∀ (ps : List Pattern) (sc : UScope),
    Yields (inferPatterns o n ps sc) (fun r => UType.FirmList r.1) (fun r σ =>
      ∀ (Q : List (String × Value) → UScope → Prop),
      (∀ bs sc name v w, Q bs sc → v.HasType K (σ w) → Q (bs ++ [(name, v)]) ((name, w) :: sc)) →
      ∀ vs bs bs', Pattern.matchesAll ps vs bs = some bs' → Value.HaveTypes K vs (UType.instList σ r.1) →
      Q bs sc → Q bs' r.2)
  | [], sc => by
    simp only [inferPatterns]
    refine (yields_pure (α := List UType × UScope) (a := ([], sc)) (F := fun r => UType.FirmList r.1) trivial).mono (fun _ h => h) ?_
    rintro _ σ _ rfl Q hQ vs bs bs' hm hx hb
    simp only [Pattern.matchesAll, Option.some.injEq] at hm
    subst hm; exact hb
  | p :: ps, sc => by
    simp only [inferPatterns]
    refine ((yields_pattern ho (K := K) p sc).bind fun r _ => (yields_patterns ho (K := K) ps r.2).bind fun rs hrs =>
      yields_pure (α := List UType × UScope) (a := (.var r.1 :: rs.1, rs.2)) (F := fun r => UType.FirmList r.1) ⟨trivial, hrs⟩).mono (fun _ h => h) ?_
    rintro _ σ _ ⟨r, hr, rs, hrs, rfl⟩ Q hQ vs bs bs' hm hx hb
    simp only [UType.instList] at hx
    cases vs with
    | nil => simp only [Value.HaveTypes] at hx
    | cons v vs =>
      simp only [Value.HaveTypes] at hx
      simp only [Pattern.matchesAll] at hm
      split at hm
      · rename_i acc hacc
        exact hrs Q hQ vs acc bs' hm hx.2 (hr Q hQ v bs acc hacc hx.1 hb)
      · simp only [reduceCtorEq] at hm

theorem yields_elems (ho : o.Lists) {K : Slack} : ∀ (ps : List Pattern) (e : Nat) (sc : UScope),
    Yields (inferElems o n ps e sc) (fun _ => True) (fun r σ =>
      ∀ (Q : List (String × Value) → UScope → Prop),
      (∀ bs sc name v w, Q bs sc → v.HasType K (σ w) → Q (bs ++ [(name, v)]) ((name, w) :: sc)) →
      ∀ vs bs bs', Pattern.matchesAll ps vs bs = some bs' → (∀ v ∈ vs, v.HasType K (σ e)) →
      Q bs sc → ps.length = vs.length → Q bs' r)
  | [], e, sc => by
    simp only [inferElems]
    refine yields_ret.to ?_
    rintro _ σ rfl Q hQ vs bs bs' hm hx hb hl
    simp only [Pattern.matchesAll, Option.some.injEq] at hm
    subst hm; exact hb
  | p :: ps, e, sc => by
    simp only [inferElems]
    refine ((yields_pattern ho (K := K) p sc).bind fun r _ => (yields_pair ho).bind fun _ _ =>
      yields_elems ho (K := K) ps e r.2).to ?_
    rintro sc' σ ⟨r, hr, _, he, hrs⟩ Q hQ vs bs bs' hm hx hb hl
    cases vs with
    | nil => simp at hl
    | cons v vs =>
      simp only [Pattern.matchesAll] at hm
      split at hm
      · rename_i acc hacc
        exact hrs Q hQ vs acc bs' hm (fun y hy => hx y (List.mem_cons_of_mem _ hy))
          (hr Q hQ v bs acc hacc (by rw [← he]; exact hx v List.mem_cons_self) hb) (by simpa using hl)
      · simp only [reduceCtorEq] at hm
end

theorem UScope.get_cons {name x : String} {w : Nat} {sc : UScope} :
    UScope.get ((name, w) :: sc) x = if x = name then some w else sc.get x := by
  unfold UScope.get
  simp only [TMap.get]

variable {δ : Type}

theorem UScope.Agrees.single {K : Slack} {σ : Assignment} {s : Scope δ} {sc : UScope} (h : sc.Agrees K σ s)
    {name : String} {v : Value} {w : Nat} (hv : v.HasType K (σ w)) :
    UScope.Agrees ((name, w) :: sc) K σ (Scope.single name v s) := by
  intro x u y hg hy
  rw [UScope.get_cons] at hg
  unfold Scope.getValue at hy
  by_cases e : x = name
  · subst e
    simp only [if_true, Option.some.injEq] at hg hy
    subst hg; subst hy; exact hv
  · rw [if_neg e] at hg
    rw [if_neg (fun h => e h.symm)] at hy
    exact h x u y hg hy

theorem PatSound.agrees {K : Slack} {σ : Assignment} {s : Scope δ} {p : Pattern} {T : ValueType} {sc sc' : UScope}
    (h : PatSound K σ p T sc sc') {v : Value} {bs : List (String × Value)} (hm : v.matchesPat p = some bs)
    (hv : v.HasType K T) (ha : sc.Agrees K σ s) : sc'.Agrees K σ (s.withBindings bs) := by
  refine h (fun bs sc => sc.Agrees K σ (s.withBindings bs)) ?_ v.coerceNominal [] bs hm hv.coerceNominal ?_
  · intro bs sc name v w hq hv x u y hg hy
    rw [UScope.get_cons] at hg
    rw [Scope.getValue_withBindings_snoc] at hy
    by_cases e : x = name
    · subst e
      simp only [if_true, Option.some.injEq] at hg hy
      subst hg; subst hy; exact hv
    · rw [if_neg e] at hg
      rw [if_neg (fun h => e h.symm)] at hy
      exact hq x u y hg hy
  · intro x u y hg hy
    rw [Scope.getValue_withBindings_nil] at hy
    exact ha x u y hg hy

end Tc
end Doodle
