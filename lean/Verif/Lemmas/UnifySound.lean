import Verif.Lemmas.UnifyVar

/-! The induction that shows that unification loses nothing. -/

namespace Doodle
namespace Tc

open Num (MachineRep BitWidth)

/-- what unifying two types that are not variables means -/
structure UQs (t1 t2 t0 : UType) (σ : Assignment) (m : Nat) (new : List Req) : Prop where
  left : sz (t1.inst σ) ≤ m → t1.inst σ = t2.inst σ ∧ t0.inst σ = t2.inst σ
  right : sz (t2.inst σ) ≤ m → t1.inst σ = t2.inst σ ∧ t0.inst σ = t2.inst σ
  both : sz (t0.inst σ) ≤ m → t1.inst σ = t2.inst σ ∧ t0.inst σ = t2.inst σ
  nest : Heavy σ m new → m < sz (t1.inst σ) ∧ m < sz (t2.inst σ) ∧ m < sz (t0.inst σ)

theorem UQs.uq {t1 t2 t0 : UType} {σ : Assignment} {m : Nat} {new : List Req} (h : UQs t1 t2 t0 σ m new) :
    UQ t1 t2 t0 σ m new :=
  ⟨fun hh => h.left (by omega), fun hh => h.right (by omega), fun hh => h.both (by omega), fun hh => by
    have := h.nest hh; omega⟩

/-- the same for lists of types -/
structure UQl (ts1 ts2 ts0 : List UType) (σ : Assignment) (m : Nat) (new : List Req) : Prop where
  left : sizeOf (UType.instList σ ts1) ≤ m →
    UType.instList σ ts1 = UType.instList σ ts2 ∧ UType.instList σ ts0 = UType.instList σ ts2
  right : sizeOf (UType.instList σ ts2) ≤ m →
    UType.instList σ ts1 = UType.instList σ ts2 ∧ UType.instList σ ts0 = UType.instList σ ts2
  both : sizeOf (UType.instList σ ts0) ≤ m →
    UType.instList σ ts1 = UType.instList σ ts2 ∧ UType.instList σ ts0 = UType.instList σ ts2
  nest : Heavy σ m new → m < sizeOf (UType.instList σ ts1) ∧ m < sizeOf (UType.instList σ ts2) ∧
    m < sizeOf (UType.instList σ ts0)

/-- the same for fields -/
structure UQf (ts1 ts2 ts0 : List (String × UType)) (σ : Assignment) (m : Nat) (new : List Req) : Prop where
  left : sizeOf (UType.instFields σ ts1) ≤ m →
    UType.instFields σ ts1 = UType.instFields σ ts2 ∧ UType.instFields σ ts0 = UType.instFields σ ts2
  right : sizeOf (UType.instFields σ ts2) ≤ m →
    UType.instFields σ ts1 = UType.instFields σ ts2 ∧ UType.instFields σ ts0 = UType.instFields σ ts2
  both : sizeOf (UType.instFields σ ts0) ≤ m →
    UType.instFields σ ts1 = UType.instFields σ ts2 ∧ UType.instFields σ ts0 = UType.instFields σ ts2
  nest : Heavy σ m new → m < sizeOf (UType.instFields σ ts1) ∧ m < sizeOf (UType.instFields σ ts2) ∧
    m < sizeOf (UType.instFields σ ts0)

/-- what the induction shows -/
structure Sound (o : Orders) (n : Nat) : Prop where
  utype : ∀ {t1 t2 t0 : UType} {s s' : Checker}, Good s → t1.Firm → t2.Firm → unifyUtype o n t1 t2 s = .ok (t0, s') →
    t0.Firm ∧ Claim s s' (UQ t1 t2 t0) ∧ (¬ t1.IsVar → ¬ t2.IsVar → ¬ t0.IsVar ∧ Claim s s' (UQs t1 t2 t0))
  varC : ∀ {v : Nat} {c c0 : UConstraint} {s s' : Checker}, Good s → c.Ok →
    unifyVarConstraint o n v c s = .ok (c0, s') → Claim s s' (VQ v c)
  cpair : ∀ {c1 c2 c0 : UConstraint} {s s' : Checker}, Good s → c1.Ok → c2.Ok →
    unifyConstraintPair o n c1 c2 s = .ok (c0, s') → c0.Ok ∧ Claim s s' (CQ c1 c2 c0)
  pair : ∀ {v1 v2 : Nat} {a : Unit} {s s' : Checker}, Good s → unifyVarPair o n v1 v2 s = .ok (a, s') →
    Claim s s' (PQ v1 v2)

theorem Sound.zero (o : Orders) : Sound o 0 := by
  refine ⟨?_, ?_, ?_, ?_⟩
  · intro _ _ _ _ _ _ _ _ h
    unfold unifyUtype at h
    exact (TcM.fuel_ne.mp h).elim
  · intro _ _ _ _ _ _ _ h
    unfold unifyVarConstraint at h
    exact (TcM.fuel_ne.mp h).elim
  · intro _ _ _ _ _ _ _ _ h
    unfold unifyConstraintPair at h
    exact (TcM.fuel_ne.mp h).elim
  · intro _ _ _ _ _ _ h
    unfold unifyVarPair at h
    exact (TcM.fuel_ne.mp h).elim

variable {o : Orders} {n : Nat}

/-! ### types -/

theorem types_sound (hS : Sound o n) : ∀ (as bs : List UType) {ts : List UType} {s s' : Checker}, Good s →
    as.length = bs.length → UType.FirmList as → UType.FirmList bs →
    unifyTypes (unifyUtype o n) as bs s = .ok (ts, s') → UType.FirmList ts ∧ Claim s s' (UQl as bs ts)
  | [], [], ts, s, s', hg, _, _, _, h => by
    obtain ⟨rfl, rfl⟩ := TcM.pure_eq_ok.mp h
    exact ⟨trivial, Claim.refl hg fun σ m => ⟨fun _ => ⟨rfl, rfl⟩, fun _ => ⟨rfl, rfl⟩, fun _ => ⟨rfl, rfl⟩,
      fun h => (not_heavy_nil h).elim⟩⟩
  | a :: as, b :: bs, ts, s, s', hg, hl, ha, hb, h => by
    unfold unifyTypes at h
    rw [TcM.bind_eq_ok] at h
    obtain ⟨t, s1, h1, h⟩ := h
    rw [TcM.bind_eq_ok] at h
    obtain ⟨ts', s2, h2, h⟩ := h
    obtain ⟨rfl, rfl⟩ := TcM.pure_eq_ok.mp h
    unfold UType.FirmList at ha hb
    obtain ⟨f1, c1, _⟩ := hS.utype hg ha.1 hb.1 h1
    obtain ⟨f2, c2⟩ := types_sound hS as bs c1.1.good (by simpa using hl) ha.2 hb.2 h2
    refine ⟨⟨f1, f2⟩, c1.trans c2 fun σ m n1 n2 _ q1 q2 => ?_⟩
    have e : ∀ (x y : UType) (xs ys : List UType), x.inst σ = y.inst σ → UType.instList σ xs = UType.instList σ ys →
        UType.instList σ (x :: xs) = UType.instList σ (y :: ys) := by
      intro x y xs ys h1 h2
      rw [UType.instList, UType.instList, h1, h2]
    have z : ∀ (x : UType) (xs : List UType), sizeOf (UType.instList σ (x :: xs)) =
        1 + sz (x.inst σ) + sizeOf (UType.instList σ xs) := fun x xs => by
      rw [UType.instList, List.cons.sizeOf_spec]
    refine ⟨fun h => ?_, fun h => ?_, fun h => ?_, fun h => ?_⟩
    · rw [z] at h
      obtain ⟨a1, a2⟩ := q1.left (by omega)
      obtain ⟨b1, b2⟩ := q2.left (by omega)
      exact ⟨e _ _ _ _ a1 b1, e _ _ _ _ a2 b2⟩
    · rw [z] at h
      obtain ⟨a1, a2⟩ := q1.right (by omega)
      obtain ⟨b1, b2⟩ := q2.right (by omega)
      exact ⟨e _ _ _ _ a1 b1, e _ _ _ _ a2 b2⟩
    · rw [z] at h
      obtain ⟨a1, a2⟩ := q1.both (by omega)
      obtain ⟨b1, b2⟩ := q2.both (by omega)
      exact ⟨e _ _ _ _ a1 b1, e _ _ _ _ a2 b2⟩
    · rw [z, z, z]
      rcases Heavy.append.mp h with h | h
      · have := q1.nest h; omega
      · have := q2.nest h; omega

theorem fields_sound (hS : Sound o n) : ∀ (as bs : List (String × UType)) {ts : List (String × UType)} {s s' : Checker},
    Good s → as.length = bs.length → UType.FirmFields as → UType.FirmFields bs →
    unifyFields (unifyUtype o n) as bs s = .ok (ts, s') → UType.FirmFields ts ∧ Claim s s' (UQf as bs ts)
  | [], [], ts, s, s', hg, _, _, _, h => by
    obtain ⟨rfl, rfl⟩ := TcM.pure_eq_ok.mp h
    exact ⟨trivial, Claim.refl hg fun σ m => ⟨fun _ => ⟨rfl, rfl⟩, fun _ => ⟨rfl, rfl⟩, fun _ => ⟨rfl, rfl⟩,
      fun h => (not_heavy_nil h).elim⟩⟩
  | (l1, a) :: as, (l2, b) :: bs, ts, s, s', hg, hl, ha, hb, h => by
    unfold unifyFields at h
    rw [TcM.ite_eq_ok] at h
    rcases h with ⟨_, h⟩ | ⟨hl12, h⟩
    · exact (TcM.fail_ne.mp h).elim
    have hl12 : l1 = l2 := Decidable.byContradiction hl12
    subst hl12
    rw [TcM.bind_eq_ok] at h
    obtain ⟨t, s1, h1, h⟩ := h
    rw [TcM.bind_eq_ok] at h
    obtain ⟨ts', s2, h2, h⟩ := h
    obtain ⟨rfl, rfl⟩ := TcM.pure_eq_ok.mp h
    unfold UType.FirmFields at ha hb
    obtain ⟨f1, c1, _⟩ := hS.utype hg ha.1 hb.1 h1
    obtain ⟨f2, c2⟩ := fields_sound hS as bs c1.1.good (by simpa using hl) ha.2 hb.2 h2
    refine ⟨⟨f1, f2⟩, c1.trans c2 fun σ m n1 n2 _ q1 q2 => ?_⟩
    have e : ∀ (x y : UType) (xs ys : List (String × UType)), x.inst σ = y.inst σ →
        UType.instFields σ xs = UType.instFields σ ys →
        UType.instFields σ ((l1, x) :: xs) = UType.instFields σ ((l1, y) :: ys) := by
      intro x y xs ys h1 h2
      rw [UType.instFields, UType.instFields, h1, h2]
    have z : ∀ (x : UType) (xs : List (String × UType)), sz (x.inst σ) + sizeOf (UType.instFields σ xs) <
        sizeOf (UType.instFields σ ((l1, x) :: xs)) := fun x xs => by
      rw [UType.instFields, List.cons.sizeOf_spec, Prod.mk.sizeOf_spec]
      unfold sz
      omega
    refine ⟨fun h => ?_, fun h => ?_, fun h => ?_, fun h => ?_⟩
    · have := z a as
      obtain ⟨a1, a2⟩ := q1.left (by omega)
      obtain ⟨b1, b2⟩ := q2.left (by omega)
      exact ⟨e _ _ _ _ a1 b1, e _ _ _ _ a2 b2⟩
    · have := z b bs
      obtain ⟨a1, a2⟩ := q1.right (by omega)
      obtain ⟨b1, b2⟩ := q2.right (by omega)
      exact ⟨e _ _ _ _ a1 b1, e _ _ _ _ a2 b2⟩
    · have := z t ts'
      obtain ⟨a1, a2⟩ := q1.both (by omega)
      obtain ⟨b1, b2⟩ := q2.both (by omega)
      exact ⟨e _ _ _ _ a1 b1, e _ _ _ _ a2 b2⟩
    · have y1 := z a as
      have y2 := z b bs
      have y3 := z t ts'
      rcases Heavy.append.mp h with h | h
      · have := q1.nest h; omega
      · have := q2.nest h; omega

theorem uqs_refl {t1 t2 t0 : UType} {σ : Assignment} {m : Nat} (h1 : t1.inst σ = t2.inst σ) (h2 : t0.inst σ = t2.inst σ) :
    UQs t1 t2 t0 σ m [] :=
  ⟨fun _ => ⟨h1, h2⟩, fun _ => ⟨h1, h2⟩, fun _ => ⟨h1, h2⟩, fun h => (not_heavy_nil h).elim⟩

theorem uqs_wrap {e1 e2 e0 t1 t2 t0 : UType} {σ : Assignment} {m : Nat} {new : List Req} (q : UQ e1 e2 e0 σ m new)
    (f : ValueType → ValueType) (hf : ∀ T, sz T < sz (f T)) (h1 : t1.inst σ = f (e1.inst σ)) (h2 : t2.inst σ = f (e2.inst σ))
    (h0 : t0.inst σ = f (e0.inst σ)) : UQs t1 t2 t0 σ m new := by
  have z1 := hf (e1.inst σ)
  have z2 := hf (e2.inst σ)
  have z0 := hf (e0.inst σ)
  refine ⟨fun h => ?_, fun h => ?_, fun h => ?_, fun h => ?_⟩ <;> rw [h1, h2, h0] at *
  · obtain ⟨a, b⟩ := q.left (by omega); rw [a, b]; exact ⟨rfl, rfl⟩
  · obtain ⟨a, b⟩ := q.right (by omega); rw [a, b]; exact ⟨rfl, rfl⟩
  · obtain ⟨a, b⟩ := q.both (by omega); rw [a, b]; exact ⟨rfl, rfl⟩
  · have := q.nest h; omega

theorem primint_basetype {p : MachineRep} {b : BaseType} {t0 : UType} {s s' : Checker}
    (h : unifyPrimintBasetype p b s = .ok (t0, s')) :
    t0 = .base b ∧ s = s' ∧ ∀ σ, (UType.int p).inst σ = (UType.base b).inst σ := by
  unfold unifyPrimintBasetype at h
  cases b with
  | num w =>
    dsimp only at h
    rw [TcM.ite_eq_ok] at h
    rcases h with ⟨rfl, h⟩ | ⟨_, h⟩
    · obtain ⟨rfl, rfl⟩ := TcM.pure_eq_ok.mp h
      exact ⟨rfl, rfl, fun σ => rfl⟩
    · exact (TcM.fail_ne.mp h).elim
  | bool => exact (TcM.fail_ne.mp h).elim
  | char => exact (TcM.fail_ne.mp h).elim

/-- a variable and a type that is not one -/
theorem var_utype (hS : Sound o n) {v : Nat} {t t0 : UType} {s s' : Checker} (hg : Good s) (hf : t.Firm) (hv : ¬ t.IsVar)
    (h : (do let _ ← unifyVarConstraint o n v (.equiv t); occurs o n v; pure (UType.var v) : TcM UType) s = .ok (t0, s')) :
    t0 = .var v ∧ Claim s s' (UQ (.var v) t (.var v)) ∧ Claim s s' (UQ t (.var v) (.var v)) := by
  rw [TcM.bind_eq_ok] at h
  obtain ⟨c, s1, h1, h⟩ := h
  rw [TcM.bind_eq_ok] at h
  obtain ⟨_, s2, h2, h⟩ := h
  obtain ⟨_, rfl⟩ := TcM.read_eq_ok.mp h2
  obtain ⟨rfl, rfl⟩ := TcM.pure_eq_ok.mp h
  have hcl := hS.varC hg (show (UConstraint.equiv t).Ok from ⟨hf, hv⟩) h1
  have key : ∀ σ m new, VQ v (.equiv t) σ m new → (sz (σ v) < m ∨ sz (t.inst σ) < m → σ v = t.inst σ) := by
    intro σ m new q hh
    refine (UConstraint.holds_equiv hf).mp (q.hold ?_)
    rcases hh with h | h
    · exact .inl h
    · exact .inr ⟨t, rfl, h⟩
  refine ⟨rfl, hcl.weaken fun σ m new _ q => ?_, hcl.weaken fun σ m new _ q => ?_⟩
  · refine ⟨fun h => ?_, fun h => ?_, fun h => ?_, fun h => ?_⟩
    · exact ⟨key σ m new q (.inl h), key σ m new q (.inl h)⟩
    · exact ⟨key σ m new q (.inr h), key σ m new q (.inr h)⟩
    · exact ⟨key σ m new q (.inl h), key σ m new q (.inl h)⟩
    · obtain ⟨a, b⟩ := q.nest h
      exact ⟨a, b t rfl, a⟩
  · refine ⟨fun h => ?_, fun h => ?_, fun h => ?_, fun h => ?_⟩
    · exact ⟨(key σ m new q (.inr h)).symm, rfl⟩
    · exact ⟨(key σ m new q (.inl h)).symm, rfl⟩
    · exact ⟨(key σ m new q (.inl h)).symm, rfl⟩
    · obtain ⟨a, b⟩ := q.nest h
      exact ⟨b t rfl, a, a⟩

theorem utype_sound (hS : Sound o n) {t1 t2 t0 : UType} {s s' : Checker} (hg : Good s) (h1 : t1.Firm) (h2 : t2.Firm)
    (h : unifyUtype o (n + 1) t1 t2 s = .ok (t0, s')) :
    t0.Firm ∧ Claim s s' (UQ t1 t2 t0) ∧ (¬ t1.IsVar → ¬ t2.IsVar → ¬ t0.IsVar ∧ Claim s s' (UQs t1 t2 t0)) := by
  have strong : t0.Firm → ¬ t0.IsVar → Claim s s' (UQs t1 t2 t0) → t0.Firm ∧ Claim s s' (UQ t1 t2 t0) ∧
      (¬ t1.IsVar → ¬ t2.IsVar → ¬ t0.IsVar ∧ Claim s s' (UQs t1 t2 t0)) := fun hf hn hc =>
    ⟨hf, hc.weaken fun _ _ _ _ q => q.uq, fun _ _ => ⟨hn, hc⟩⟩
  have done : t0.Firm → ¬ t0.IsVar → s = s' → (∀ σ, t1.inst σ = t2.inst σ ∧ t0.inst σ = t2.inst σ) →
      t0.Firm ∧ Claim s s' (UQ t1 t2 t0) ∧
      (¬ t1.IsVar → ¬ t2.IsVar → ¬ t0.IsVar ∧ Claim s s' (UQs t1 t2 t0)) := by
    rintro hf hn rfl he
    exact strong hf hn (Claim.refl hg fun σ m => uqs_refl (he σ).1 (he σ).2)
  have hvar : ∀ {v t}, t1 = .var v → t2 = t → ¬ t.IsVar →
      (do let _ ← unifyVarConstraint o n v (.equiv t); occurs o n v; pure (UType.var v) : TcM UType) s = .ok (t0, s') →
      t0.Firm ∧ Claim s s' (UQ t1 t2 t0) ∧
      (¬ t1.IsVar → ¬ t2.IsVar → ¬ t0.IsVar ∧ Claim s s' (UQs t1 t2 t0)) := by
    rintro v t rfl rfl hv h
    obtain ⟨rfl, c, _⟩ := var_utype hS hg h2 hv h
    exact ⟨trivial, c, fun hh => (hh trivial).elim⟩
  have hvar' : ∀ {v t}, t2 = .var v → t1 = t → ¬ t.IsVar →
      (do let _ ← unifyVarConstraint o n v (.equiv t); occurs o n v; pure (UType.var v) : TcM UType) s = .ok (t0, s') →
      t0.Firm ∧ Claim s s' (UQ t1 t2 t0) ∧
      (¬ t1.IsVar → ¬ t2.IsVar → ¬ t0.IsVar ∧ Claim s s' (UQs t1 t2 t0)) := by
    rintro v t rfl rfl hv h
    obtain ⟨rfl, _, c⟩ := var_utype hS hg h1 hv h
    exact ⟨trivial, c, fun _ hh => (hh trivial).elim⟩
  unfold unifyUtype at h
  cases t1 with
  | hole => exact h1.elim
  | empty => exact h1.elim
  | var v =>
    cases t2 with
    | hole => exact h2.elim
    | empty => exact h2.elim
    | var w =>
      dsimp only at h
      rw [TcM.bind_eq_ok] at h
      obtain ⟨_, s1, hp, h⟩ := h
      obtain ⟨rfl, rfl⟩ := TcM.pure_eq_ok.mp h
      refine ⟨trivial, (hS.pair hg hp).weaken fun σ m new _ q => ?_, fun hh => (hh trivial).elim⟩
      obtain ⟨q1, q2⟩ := q
      have e1 : (UType.var v).inst σ = (UType.var w).inst σ := q1
      have e0 : (UType.var (min v w)).inst σ = (UType.var w).inst σ := by
        show σ (min v w) = σ w
        rcases Nat.le_total v w with h | h
        · rw [Nat.min_eq_left h]; exact q1
        · rw [Nat.min_eq_right h]
      refine ⟨fun _ => ⟨e1, e0⟩, fun _ => ⟨e1, e0⟩, fun _ => ⟨e1, e0⟩, fun hh => ?_⟩
      have := q2 hh
      rw [e0, ← e1]
      exact ⟨this, this, this⟩
    | viewObj => exact hvar rfl rfl id h
    | phantom _ => exact hvar rfl rfl id h
    | base _ => exact hvar rfl rfl id h
    | int _ => exact hvar rfl rfl id h
    | tuple _ => exact hvar rfl rfl id h
    | record _ => exact hvar rfl rfl id h
    | seq _ _ => exact hvar rfl rfl id h
    | option _ => exact hvar rfl rfl id h
  | viewObj =>
    cases t2 with
    | hole => exact h2.elim
    | empty => exact h2.elim
    | var w => exact hvar' rfl rfl id h
    | viewObj =>
      obtain ⟨rfl, rfl⟩ := TcM.pure_eq_ok.mp h
      exact done trivial id rfl fun σ => ⟨rfl, rfl⟩
    | _ => exact (TcM.fail_ne.mp h).elim
  | phantom e1 =>
    cases t2 with
    | hole => exact h2.elim
    | empty => exact h2.elim
    | var w => exact hvar' rfl rfl id h
    | phantom e2 =>
      dsimp only at h
      rw [TcM.ite_eq_ok] at h
      rcases h with ⟨rfl, h⟩ | ⟨_, h⟩
      · obtain ⟨rfl, rfl⟩ := TcM.pure_eq_ok.mp h
        exact done h1 id rfl fun σ => ⟨rfl, rfl⟩
      · rw [TcM.bind_eq_ok] at h
        obtain ⟨e0, s1, hu, h⟩ := h
        obtain ⟨rfl, rfl⟩ := TcM.pure_eq_ok.mp h
        obtain ⟨hf, hc, _⟩ := hS.utype (t1 := e1) (t2 := e2) hg h1 h2 hu
        exact strong hf id (hc.weaken fun σ m new _ q => uqs_wrap q .phantom (fun T => by
          show sizeOf T < sizeOf (ValueType.phantom T); simp only [ValueType.phantom.sizeOf_spec]; omega) rfl rfl rfl)
    | _ => exact (TcM.fail_ne.mp h).elim
  | option e1 =>
    cases t2 with
    | hole => exact h2.elim
    | empty => exact h2.elim
    | var w => exact hvar' rfl rfl id h
    | option e2 =>
      dsimp only at h
      rw [TcM.ite_eq_ok] at h
      rcases h with ⟨rfl, h⟩ | ⟨_, h⟩
      · obtain ⟨rfl, rfl⟩ := TcM.pure_eq_ok.mp h
        exact done h1 id rfl fun σ => ⟨rfl, rfl⟩
      · rw [TcM.bind_eq_ok] at h
        obtain ⟨e0, s1, hu, h⟩ := h
        obtain ⟨rfl, rfl⟩ := TcM.pure_eq_ok.mp h
        obtain ⟨hf, hc, _⟩ := hS.utype (t1 := e1) (t2 := e2) hg h1 h2 hu
        exact strong hf id (hc.weaken fun σ m new _ q => uqs_wrap q .option (fun T => by
          show sizeOf T < sizeOf (ValueType.option T); simp only [ValueType.option.sizeOf_spec]; omega) rfl rfl rfl)
    | _ => exact (TcM.fail_ne.mp h).elim
  | seq e1 k1 =>
    cases t2 with
    | hole => exact h2.elim
    | empty => exact h2.elim
    | var w => exact hvar' rfl rfl id h
    | seq e2 k2 =>
      dsimp only at h
      rw [TcM.ite_eq_ok] at h
      rcases h with ⟨rfl, h⟩ | ⟨_, h⟩
      · obtain ⟨ht, rfl⟩ := TcM.pure_eq_ok.mp h
        split at ht <;> subst ht
        · exact done h1 id rfl fun σ => ⟨rfl, rfl⟩
        · exact done h1 id rfl fun σ => ⟨rfl, rfl⟩
      · rw [TcM.bind_eq_ok] at h
        obtain ⟨e0, s1, hu, h⟩ := h
        obtain ⟨rfl, rfl⟩ := TcM.pure_eq_ok.mp h
        obtain ⟨hf, hc, _⟩ := hS.utype (t1 := e1) (t2 := e2) hg h1 h2 hu
        exact strong hf id (hc.weaken fun σ m new _ q => uqs_wrap q .seq (fun T => by
          show sizeOf T < sizeOf (ValueType.seq T); simp only [ValueType.seq.sizeOf_spec]; omega) rfl rfl rfl)
    | _ => exact (TcM.fail_ne.mp h).elim
  | tuple ts1 =>
    cases t2 with
    | hole => exact h2.elim
    | empty => exact h2.elim
    | var w => exact hvar' rfl rfl id h
    | tuple ts2 =>
      dsimp only at h
      rw [TcM.ite_eq_ok] at h
      rcases h with ⟨_, h⟩ | ⟨hl, h⟩
      · exact (TcM.fail_ne.mp h).elim
      rw [TcM.ite_eq_ok] at h
      rcases h with ⟨rfl, h⟩ | ⟨_, h⟩
      · obtain ⟨rfl, rfl⟩ := TcM.pure_eq_ok.mp h
        exact done h1 id rfl fun σ => ⟨rfl, rfl⟩
      · rw [TcM.bind_eq_ok] at h
        obtain ⟨ts, s1, hu, h⟩ := h
        obtain ⟨rfl, rfl⟩ := TcM.pure_eq_ok.mp h
        obtain ⟨hf, hc⟩ := types_sound hS ts1 ts2 hg (Decidable.byContradiction hl) h1 h2 hu
        refine strong hf id (hc.weaken fun σ m new _ q => ?_)
        have z : ∀ ts, sz ((UType.tuple ts).inst σ) = 1 + sizeOf (UType.instList σ ts) := fun ts => by
          show sizeOf (ValueType.tuple (UType.instList σ ts)) = _
          rw [ValueType.tuple.sizeOf_spec]
        have e : ∀ {xs ys}, UType.instList σ xs = UType.instList σ ys → (UType.tuple xs).inst σ = (UType.tuple ys).inst σ :=
          fun h => congrArg ValueType.tuple h
        refine ⟨fun h => ?_, fun h => ?_, fun h => ?_, fun h => ?_⟩
        · rw [z] at h; obtain ⟨a, b⟩ := q.left (by omega); exact ⟨e a, e b⟩
        · rw [z] at h; obtain ⟨a, b⟩ := q.right (by omega); exact ⟨e a, e b⟩
        · rw [z] at h; obtain ⟨a, b⟩ := q.both (by omega); exact ⟨e a, e b⟩
        · rw [z, z, z]; have := q.nest h; omega
    | _ => exact (TcM.fail_ne.mp h).elim
  | record fs1 =>
    cases t2 with
    | hole => exact h2.elim
    | empty => exact h2.elim
    | var w => exact hvar' rfl rfl id h
    | record fs2 =>
      dsimp only at h
      rw [TcM.ite_eq_ok] at h
      rcases h with ⟨_, h⟩ | ⟨hl, h⟩
      · exact (TcM.fail_ne.mp h).elim
      rw [TcM.ite_eq_ok] at h
      rcases h with ⟨rfl, h⟩ | ⟨_, h⟩
      · obtain ⟨rfl, rfl⟩ := TcM.pure_eq_ok.mp h
        exact done h1 id rfl fun σ => ⟨rfl, rfl⟩
      · rw [TcM.bind_eq_ok] at h
        obtain ⟨ts, s1, hu, h⟩ := h
        obtain ⟨rfl, rfl⟩ := TcM.pure_eq_ok.mp h
        obtain ⟨hf, hc⟩ := fields_sound hS fs1 fs2 hg (Decidable.byContradiction hl) h1 h2 hu
        refine strong hf id (hc.weaken fun σ m new _ q => ?_)
        have z : ∀ ts, sz ((UType.record ts).inst σ) = 1 + sizeOf (UType.instFields σ ts) := fun ts => by
          show sizeOf (ValueType.record (UType.instFields σ ts)) = _
          rw [ValueType.record.sizeOf_spec]
        have e : ∀ {xs ys}, UType.instFields σ xs = UType.instFields σ ys → (UType.record xs).inst σ = (UType.record ys).inst σ :=
          fun h => congrArg ValueType.record h
        refine ⟨fun h => ?_, fun h => ?_, fun h => ?_, fun h => ?_⟩
        · rw [z] at h; obtain ⟨a, b⟩ := q.left (by omega); exact ⟨e a, e b⟩
        · rw [z] at h; obtain ⟨a, b⟩ := q.right (by omega); exact ⟨e a, e b⟩
        · rw [z] at h; obtain ⟨a, b⟩ := q.both (by omega); exact ⟨e a, e b⟩
        · rw [z, z, z]; have := q.nest h; omega
    | _ => exact (TcM.fail_ne.mp h).elim
  | base b1 =>
    cases t2 with
    | hole => exact h2.elim
    | empty => exact h2.elim
    | var w => exact hvar' rfl rfl id h
    | base b2 =>
      dsimp only at h
      rw [TcM.ite_eq_ok] at h
      rcases h with ⟨_, h⟩ | ⟨he, h⟩
      · exact (TcM.fail_ne.mp h).elim
      obtain ⟨rfl, rfl⟩ := TcM.pure_eq_ok.mp h
      have he : b1 = b2 := Decidable.byContradiction he
      subst he
      exact done trivial id rfl fun σ => ⟨rfl, rfl⟩
    | int p =>
      obtain ⟨rfl, rfl, he⟩ := primint_basetype h
      exact done trivial id rfl fun σ => ⟨(he σ).symm, (he σ).symm⟩
    | _ => exact (TcM.fail_ne.mp h).elim
  | int p1 =>
    cases t2 with
    | hole => exact h2.elim
    | empty => exact h2.elim
    | var w => exact hvar' rfl rfl id h
    | base b =>
      obtain ⟨rfl, rfl, he⟩ := primint_basetype h
      exact done trivial id rfl fun σ => ⟨he σ, rfl⟩
    | int p2 =>
      dsimp only at h
      rw [TcM.ite_eq_ok] at h
      rcases h with ⟨rfl, h⟩ | ⟨_, h⟩
      · obtain ⟨rfl, rfl⟩ := TcM.pure_eq_ok.mp h
        exact done trivial id rfl fun σ => ⟨rfl, rfl⟩
      · exact (TcM.fail_ne.mp h).elim
    | _ => exact (TcM.fail_ne.mp h).elim

end Tc
end Doodle
