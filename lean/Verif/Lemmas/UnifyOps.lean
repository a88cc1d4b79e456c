import Verif.Lemmas.UnifyProj

/-! What the requests to the type checker achieve. -/

namespace Doodle
namespace Tc

open Num (MachineRep BitWidth)

variable {o : Orders} {n : Nat}

/-- from `s` to `s'` the type checker has forgotten nothing and learnt `P` -/
structure Learns (s s' : Checker) (P : Assignment → Prop) : Prop where
  good : Good s'
  grow : s.constraints.length ≤ s'.constraints.length
  solves : ∀ σ, Solves σ s' → Solves σ s ∧ P σ

theorem Learns.refl {s : Checker} (hg : Good s) : Learns s s (fun _ => True) :=
  ⟨hg, Nat.le_refl _, fun _ h => ⟨h, trivial⟩⟩

theorem Learns.trans {s s1 s2 : Checker} {P Q R : Assignment → Prop} (h1 : Learns s s1 P) (h2 : Learns s1 s2 Q)
    (hR : ∀ σ, P σ → Q σ → R σ) : Learns s s2 R :=
  ⟨h2.good, Nat.le_trans h1.grow h2.grow, fun σ h =>
    ⟨(h1.solves σ (h2.solves σ h).1).1, hR σ (h1.solves σ (h2.solves σ h).1).2 (h2.solves σ h).2⟩⟩

theorem Learns.weaken {s s' : Checker} {P Q : Assignment → Prop} (h : Learns s s' P)
    (hQ : ∀ σ, Solves σ s' → Solves σ s → P σ → Q σ) : Learns s s' Q :=
  ⟨h.good, h.grow, fun σ hσ => ⟨(h.solves σ hσ).1, hQ σ hσ (h.solves σ hσ).1 (h.solves σ hσ).2⟩⟩

theorem Solves.aliasOk {σ : Assignment} {s : Checker} (h : Solves σ s) : AliasOk σ s := h.same

theorem Solves.sat {σ : Assignment} {s : Checker} (h : Solves σ s) (m : Nat) : Sat σ m s := fun v _ => h.holds v

theorem solves_of_sat {σ : Assignment} {s : Checker} (ha : AliasOk σ s) (h : ∀ m, Sat σ m s) : Solves σ s :=
  ⟨ha, fun v => h (sz (σ v)) v (Nat.le_refl _)⟩

/-- a constraint that leaves one type, which is another one than the solution gives -/
theorem sharp_size {σ : Assignment} {s : Checker} (h : Solves σ s) {v : Nat} {W : ValueType}
    (hs : SharpI σ (s.known v) W) : σ v = W := by
  have := h.holds v
  cases hk : s.known v with
  | indefinite => rw [hk] at hs; exact hs.elim
  | variant id => rw [hk] at hs; exact hs.elim
  | invariant c =>
    rw [hk] at hs this
    exact Sharp.eq hs this

/-- **every request made on the way was met** -/
theorem Claim.all_hold {st st' : Checker} {Q : Assignment → Nat → List Req → Prop} (h : Claim st st' Q)
    {σ : Assignment} (hσ : Solves σ st') :
    ∃ new, ∀ m, Step σ m st st' new ∧ Q σ m new := by
  obtain ⟨_, new, _, cl⟩ := h
  have all : ∀ N, ∀ R ∈ new, R.meas σ < N → R.Hold σ := by
    intro N
    induction N with
    | zero => intro R _ h; omega
    | succ N ih =>
      intro R hR hN
      by_cases hlt : R.meas σ < N
      · exact ih R hR hlt
      have hme : R.meas σ = N := by omega
      obtain ⟨hs, _⟩ := cl σ N hσ.aliasOk ih
      by_cases hz : sz (σ R.v) = N
      · exact hs.caseA (hσ.sat N) R hR hme hz
      · have hle := Req.meas_le σ R
        cases hl : R.light with
        | none => rw [Req.meas_none hl] at hme; exact absurd hme hz
        | some t =>
          rw [Req.meas_some hl] at hme
          have hzt : sz (t.inst σ) = N := by omega
          obtain ⟨h1, _⟩ := hs.caseB R hR t hl hzt (by omega)
          have := sharp_size hσ h1
          rw [this] at hz
          exact absurd hzt hz
  exact ⟨new, fun m => cl σ m hσ.aliasOk (all m)⟩

theorem Claim.learns {st st' : Checker} {Q : Assignment → Nat → List Req → Prop} {P : Assignment → Prop}
    (h : Claim st st' Q) (hP : ∀ σ new, Solves σ st' → (∀ m, Q σ m new) → P σ) : Learns st st' P := by
  refine ⟨h.1.good, by rw [h.1.len]; exact Nat.le_refl _, fun σ hσ => ?_⟩
  obtain ⟨new, hall⟩ := h.all_hold hσ
  exact ⟨solves_of_sat (hσ.aliasOk.back h.1) fun m => (hall m).1.sat_back h.1 (hσ.sat m),
    hP σ new hσ fun m => (hall m).2⟩

/-! ### the functions of the recursion -/

theorem utype_learns (ho : o.Lists) {t1 t2 t0 : UType} {s s' : Checker} (hg : Good s) (h1 : t1.Firm) (h2 : t2.Firm)
    (h : unifyUtype o n t1 t2 s = .ok (t0, s')) :
    t0.Firm ∧ Learns s s' (fun σ => t1.inst σ = t2.inst σ ∧ t0.inst σ = t2.inst σ) := by
  obtain ⟨hf, hc, _⟩ := (sound ho n).utype hg h1 h2 h
  exact ⟨hf, hc.learns fun σ new _ q => (q (sz (t1.inst σ) + 1)).left (by omega)⟩

theorem pair_learns (ho : o.Lists) {v1 v2 : Nat} {a : Unit} {s s' : Checker} (hg : Good s)
    (h : unifyVarPair o n v1 v2 s = .ok (a, s')) : Learns s s' (fun σ => σ v1 = σ v2) :=
  ((sound ho n).pair hg h).learns fun σ new _ q => (q 0).1

theorem varC_learns (ho : o.Lists) {v : Nat} {c c0 : UConstraint} {s s' : Checker} (hg : Good s) (hc : c.Ok)
    (h : unifyVarConstraint o n v c s = .ok (c0, s')) : Learns s s' (fun σ => c.Holds σ (σ v)) :=
  ((sound ho n).varC hg hc h).learns fun σ new _ q => (q (sz (σ v) + 1)).hold (.inl (by omega))

theorem varU_learns (ho : o.Lists) {v : Nat} {t : UType} {a : Unit} {s s' : Checker} (hg : Good s) (hf : t.Firm)
    (h : unifyVarUtype o n v t s = .ok (a, s')) : Learns s s' (fun σ => σ v = t.inst σ) :=
  (varU_sound (sound ho n) hg hf h).learns fun σ new _ q => (q (sz (σ v) + 1)).1 (.inl (by omega))

theorem baseset_learns (ho : o.Lists) {v : Nat} {bs : BaseSet} {a : Unit} {s s' : Checker} (hg : Good s)
    (h : unifyVarBaseset o n v bs s = .ok (a, s')) :
    Learns s s' (fun σ => ∃ b, σ v = .base b ∧ bs.contains b = .ok true) := by
  unfold unifyVarBaseset at h
  rw [TcM.bind_eq_ok] at h
  obtain ⟨c, s1, h1, h⟩ := h
  obtain ⟨_, rfl⟩ := TcM.pure_eq_ok.mp h
  exact (varC_learns ho hg (baseset_toConstraint_ok bs) h1).weaken fun σ _ _ h => (baseset_toConstraint bs _).mp h

theorem intset_learns (ho : o.Lists) {v : Nat} {is : IntSet} {a : Unit} {s s' : Checker} (hg : Good s)
    (h : unifyVarIntset o n v is s = .ok (a, s')) :
    Learns s s' (fun σ => ∃ r, σ v = .ofMachine r ∧ is.contains r = true) := by
  unfold unifyVarIntset at h
  rw [TcM.bind_eq_ok] at h
  obtain ⟨c, s1, h1, h⟩ := h
  obtain ⟨_, rfl⟩ := TcM.pure_eq_ok.mp h
  exact (varC_learns ho hg (intset_toConstraint_ok is) h1).weaken fun σ _ _ h => (intset_toConstraint is _).mp h

/-! ### new variables -/

theorem good_new : Good Checker.new := by
  refine ⟨Aliases.wf_nil, rfl, fun i c h => ?_, fun id m h => ?_, fun v w id h => ?_, fun i id h => ?_⟩
  · simp [Checker.new] at h
  · cases h
  · simp [Checker.new, Checker.known] at h
  · simp [Checker.new] at h

theorem known_push {s : Checker} (hg : Good s) (v : Nat) :
    Checker.known { s with constraints := s.constraints ++ [.indefinite], aliases := s.aliases ++ [.ground] } v = s.known v := by
  unfold Checker.known
  dsimp only
  rw [Aliases.root_push, List.getD_eq_getElem?_getD, List.getD_eq_getElem?_getD]
  by_cases h : Aliases.root s.aliases v < s.constraints.length
  · rw [List.getElem?_append_left h]
  · rw [List.getElem?_append_right (by omega), List.getElem?_singleton, List.getElem?_eq_none (by omega)]
    split <;> rfl

theorem newVar_learns {v : Nat} {s s' : Checker} (hg : Good s) (h : newVar s = .ok (v, s')) :
    v = s.constraints.length ∧ s'.constraints.length = v + 1 ∧ (∀ σ, Solves σ s ↔ Solves σ s') ∧
      Learns s s' (fun _ => True) := by
  unfold newVar at h
  cases h
  have hsame : ∀ v w, Checker.Same { s with constraints := s.constraints ++ [.indefinite], aliases := s.aliases ++ [.ground] } v w ↔
      s.Same v w := fun v w => by
    unfold Checker.Same
    dsimp only
    rw [Aliases.root_push, Aliases.root_push]
  have hsol : ∀ σ, Solves σ s ↔ Solves σ { s with constraints := s.constraints ++ [.indefinite], aliases := s.aliases ++ [.ground] } := by
    intro σ
    constructor
    · intro h
      exact ⟨fun v w hw => h.same v w ((hsame v w).mp hw), fun v => by rw [known_push hg]; exact h.holds v⟩
    · intro h
      exact ⟨fun v w hw => h.same v w ((hsame v w).mpr hw), fun v => by have := h.holds v; rw [known_push hg] at this; exact this⟩
  refine ⟨rfl, by simp, hsol, ⟨Aliases.wf_push hg.wf, by simp [hg.len], fun i c hi => ?_, hg.var,
    fun v w id hv hw => ?_, fun i id hi => ?_⟩, by simp, fun σ hσ => ⟨(hsol σ).mpr hσ, trivial⟩⟩
  · have hi' : (s.constraints ++ [UConstraints.indefinite])[i]? = some (.invariant c) := hi
    by_cases h : i < s.constraints.length
    · rw [List.getElem?_append_left h] at hi'
      exact hg.con i c hi'
    · rw [List.getElem?_append_right (by omega), List.getElem?_singleton] at hi'
      split at hi' <;> cases hi'
  · rw [known_push hg] at hv hw
    exact (hsame v w).mpr (hg.own v w id hv hw)
  · have hi' : (s.constraints ++ [UConstraints.indefinite])[i]? = some (.variant id) := hi
    by_cases h : i < s.constraints.length
    · rw [List.getElem?_append_left h] at hi'
      exact hg.fresh i id hi'
    · rw [List.getElem?_append_right (by omega), List.getElem?_singleton] at hi'
      split at hi' <;> cases hi'

theorem initVarSimple_learns (ho : o.Lists) {t : UType} {v : Nat} {s s' : Checker} (hg : Good s) (hf : t.Firm)
    (hv : ¬ t.IsVar) (h : initVarSimple o n t s = .ok (v, s')) : Learns s s' (fun σ => σ v = t.inst σ) := by
  unfold initVarSimple at h
  rw [TcM.bind_eq_ok] at h
  obtain ⟨w, s1, h1, h⟩ := h
  rw [TcM.bind_eq_ok] at h
  obtain ⟨c, s2, h2, h⟩ := h
  obtain ⟨rfl, rfl⟩ := TcM.pure_eq_ok.mp h
  obtain ⟨_, _, _, l1⟩ := newVar_learns hg h1
  exact l1.trans (varC_learns ho l1.good (show (UConstraint.equiv t).Ok from ⟨hf, hv⟩) h2)
    fun σ _ q => (UConstraint.holds_equiv hf).mp q

/-! ### projections -/

/-- the constraint of a class is replaced by a stronger one -/
theorem set_learns {s : Checker} (hg : Good s) {v can : Nat} {c c' : UConstraint} (hcan : can = rt s v)
    (hk : s.constraints[can]? = some (.invariant c)) (hc : c'.Ok) (hst : ∀ σ T, c'.Holds σ T → c.Holds σ T) :
    Learns s { s with constraints := s.constraints.set can (.invariant c') } (fun σ => c'.Holds σ (σ v)) := by
  have hlt : can < s.constraints.length := (List.getElem?_eq_some_iff.mp hk).1
  have hk1 : ∀ w, rt s w = can → Checker.known { s with constraints := s.constraints.set can (.invariant c') } w = .invariant c' :=
    fun w hw => known_of_get (by
      show (s.constraints.set can (.invariant c'))[rt s w]? = _
      rw [hw, List.getElem?_set_self hlt])
  have hk2 : ∀ w, rt s w ≠ can → Checker.known { s with constraints := s.constraints.set can (.invariant c') } w = s.known w :=
    fun w hw => (known_eq_of (by
      show s.constraints[rt s w]? = (s.constraints.set can (.invariant c'))[rt s w]?
      rw [List.getElem?_set_ne (fun h => hw h.symm)]))
      |>.symm
  refine ⟨good_set hg hc rfl s.history, by simp, fun σ hσ => ⟨⟨fun a b hab => hσ.same a b hab, fun w => ?_⟩, ?_⟩⟩
  · by_cases hw : rt s w = can
    · have := hσ.holds w
      rw [hk1 w hw] at this
      rw [show s.known w = .invariant c from known_of_get (by rw [hw]; exact hk)]
      exact hst σ _ this
    · have := hσ.holds w
      rw [hk2 w hw] at this
      exact this
  · have := hσ.holds v
    rw [hk1 v hcan.symm] at this
    exact this

theorem projIndex_learns (ho : o.Lists) {tv ix v : Nat} {a : Unit} {s s' : Checker} (hg : Good s)
    (h : unifyVarProjIndex o n tv ix v s = .ok (a, s')) :
    Learns s s' (fun σ => ∃ Us, σ tv = .tuple Us ∧ Us[ix]? = some (σ v)) := by
  unfold unifyVarProjIndex at h
  rw [TcM.bind_eq_ok] at h
  obtain ⟨can, s1, h1, h⟩ := h
  obtain ⟨hlt, hcan, rfl⟩ := getCanonicalVar_eq_ok h1
  rw [TcM.bind_eq_ok] at h
  obtain ⟨cs, s1, h2, h⟩ := h
  obtain ⟨hk, rfl⟩ := getConstraints_eq_ok.mp h2
  have hkn : s.known tv = cs := known_of_get (by rw [rt, ← hcan]; exact hk)
  split at h
  · rw [TcM.bind_eq_ok] at h
    obtain ⟨c, s1, h3, h⟩ := h
    obtain ⟨_, rfl⟩ := TcM.pure_eq_ok.mp h
    refine (varC_learns (c := .proj (.tupleWith [(ix, v)])) ho hg trivial h3).weaken fun σ _ _ hp => ?_
    obtain ⟨Us, e, hU⟩ := hp
    exact ⟨Us, e, hU ix v (by simp [NMap.get])⟩
  · rename_i ts
    have hf := (hg.con can _ hk).1
    cases ht : ts[ix]? with
    | some t =>
      rw [ht] at h
      refine (varU_learns ho hg (firmList_mem hf t (List.mem_of_getElem? ht)) h).weaken fun σ _ hσ he => ?_
      have hh := hσ.holds tv
      rw [hkn] at hh
      refine ⟨_, (UConstraint.holds_equiv hf).mp hh, ?_⟩
      rw [instList_get, ht, he]
      rfl
    | none => rw [ht] at h; exact (TcM.panic_ne.mp h).elim
  · rename_i m
    cases hv' : NMap.get ix m with
    | some v' =>
      rw [hv'] at h
      refine (pair_learns ho hg h).weaken fun σ _ hσ he => ?_
      have hh := hσ.holds tv
      rw [hkn] at hh
      obtain ⟨Us, e, hU⟩ := hh
      exact ⟨Us, e, by rw [hU ix v' hv', he]⟩
    | none =>
      rw [hv'] at h
      have hno := hv'
      unfold insertIx at h
      obtain ⟨_, rfl⟩ := setConstraints_eq_ok.mp h
      refine (set_learns hg hcan hk (c' := .proj (.tupleWith (NMap.insert ix v m))) trivial ?_).weaken fun σ _ _ hp => ?_
      · rintro σ T ⟨Us, rfl, hU⟩
        refine ⟨Us, rfl, fun i w hw => hU i w ?_⟩
        rw [nget_insert_ne _ (fun e => by rw [e, hno] at hw; cases hw)]
        exact hw
      · obtain ⟨Us, e, hU⟩ := hp
        exact ⟨Us, e, hU ix v (nget_insert_self _ _ _)⟩
  · exact (TcM.panic_ne.mp h).elim

theorem projField_learns (ho : o.Lists) {k rv : Nat} {l : String} {v : Nat} {a : Unit} {s s' : Checker} (hg : Good s)
    (h : unifyVarProjField o n k rv l v s = .ok (a, s')) :
    Learns s s' (fun σ => ∃ Fs, σ rv = .record Fs ∧ TMap.get l Fs = some (σ v)) := by
  cases k with
  | zero => exact (TcM.fuel_ne.mp h).elim
  | succ k =>
  unfold unifyVarProjField at h
  rw [TcM.bind_eq_ok] at h
  obtain ⟨can, s1, h1, h⟩ := h
  obtain ⟨hlt, hcan, rfl⟩ := getCanonicalVar_eq_ok h1
  rw [TcM.bind_eq_ok] at h
  obtain ⟨cs, s1, h2, h⟩ := h
  obtain ⟨hk, rfl⟩ := getConstraints_eq_ok.mp h2
  have hkn : s.known rv = cs := known_of_get (by rw [rt, ← hcan]; exact hk)
  split at h
  · rw [TcM.bind_eq_ok] at h
    obtain ⟨c, s1, h3, h⟩ := h
    obtain ⟨_, rfl⟩ := TcM.pure_eq_ok.mp h
    refine (varC_learns (c := .proj (.recordWith [(l, v)])) ho hg trivial h3).weaken fun σ _ _ hp => ?_
    obtain ⟨Us, e, hU⟩ := hp
    exact ⟨Us, e, hU l v (by simp [TMap.get])⟩
  · rename_i fs
    have hf := (hg.con can _ hk).1
    cases ht : TMap.get l fs with
    | some t =>
      rw [ht] at h
      refine (varU_learns ho hg (firmFields_get hf t ht) h).weaken fun σ _ hσ he => ?_
      have hh := hσ.holds rv
      rw [hkn] at hh
      refine ⟨_, (UConstraint.holds_equiv hf).mp hh, ?_⟩
      rw [instFields_get, ht, he]
      rfl
    | none => rw [ht] at h; exact (TcM.panic_ne.mp h).elim
  · exact absurd trivial (hg.con can _ hk).2
  · rename_i m
    cases hv' : TMap.get l m with
    | some v' =>
      rw [hv'] at h
      refine (pair_learns ho hg h).weaken fun σ _ hσ he => ?_
      have hh := hσ.holds rv
      rw [hkn] at hh
      obtain ⟨Us, e, hU⟩ := hh
      exact ⟨Us, e, by rw [hU l v' hv', he]⟩
    | none =>
      rw [hv'] at h
      have hno := hv'
      obtain ⟨_, rfl⟩ := setConstraints_eq_ok.mp h
      refine (set_learns hg hcan hk (c' := .proj (.recordWith (TMap.insert l v m))) trivial ?_).weaken fun σ _ _ hp => ?_
      · rintro σ T ⟨Us, rfl, hU⟩
        refine ⟨Us, rfl, fun i w hw => hU i w ?_⟩
        rw [tget_insert_ne _ (fun e => by rw [e, hno] at hw; cases hw)]
        exact hw
      · obtain ⟨Us, e, hU⟩ := hp
        exact ⟨Us, e, hU l v (tget_insert_self _ _ _)⟩
  · exact (TcM.panic_ne.mp h).elim

theorem projParam_learns (ho : o.Lists) {ov v : Nat} {a : Unit} {s s' : Checker} (hg : Good s)
    (h : unifyVarProjParam o n ov v s = .ok (a, s')) : Learns s s' (fun σ => σ ov = .option (σ v)) := by
  unfold unifyVarProjParam at h
  rw [TcM.bind_eq_ok] at h
  obtain ⟨can, s1, h1, h⟩ := h
  obtain ⟨hlt, hcan, rfl⟩ := getCanonicalVar_eq_ok h1
  rw [TcM.bind_eq_ok] at h
  obtain ⟨cs, s1, h2, h⟩ := h
  obtain ⟨hk, rfl⟩ := getConstraints_eq_ok.mp h2
  have hkn : s.known ov = cs := known_of_get (by rw [rt, ← hcan]; exact hk)
  split at h
  · rw [TcM.bind_eq_ok] at h
    obtain ⟨c, s1, h3, h⟩ := h
    obtain ⟨_, rfl⟩ := TcM.pure_eq_ok.mp h
    exact varC_learns (c := .proj (.optOf v)) ho hg trivial h3
  · rename_i t
    have hf : (UType.option t).Firm := (hg.con can _ hk).1
    refine (varU_learns (t := t) ho hg hf h).weaken fun σ _ hσ he => ?_
    have hh := hσ.holds ov
    rw [hkn] at hh
    rw [(UConstraint.holds_equiv hf).mp hh, he]
    rfl
  · rename_i v'
    refine (pair_learns ho hg h).weaken fun σ _ hσ he => ?_
    have hh := hσ.holds ov
    rw [hkn] at hh
    rw [he]
    exact hh
  · exact (TcM.panic_ne.mp h).elim

theorem projElem_learns (ho : o.Lists) {sv v : Nat} {a : Unit} {s s' : Checker} (hg : Good s)
    (h : unifyVarProjElem o n sv v s = .ok (a, s')) : Learns s s' (fun σ => σ sv = .seq (σ v)) := by
  unfold unifyVarProjElem at h
  rw [TcM.bind_eq_ok] at h
  obtain ⟨can, s1, h1, h⟩ := h
  obtain ⟨hlt, hcan, rfl⟩ := getCanonicalVar_eq_ok h1
  rw [TcM.bind_eq_ok] at h
  obtain ⟨cs, s1, h2, h⟩ := h
  obtain ⟨hk, rfl⟩ := getConstraints_eq_ok.mp h2
  have hkn : s.known sv = cs := known_of_get (by rw [rt, ← hcan]; exact hk)
  split at h
  · rw [TcM.bind_eq_ok] at h
    obtain ⟨c, s1, h3, h⟩ := h
    obtain ⟨_, rfl⟩ := TcM.pure_eq_ok.mp h
    exact varC_learns (c := .proj (.seqOf v)) ho hg trivial h3
  · rename_i t k
    have hf : (UType.seq t k).Firm := (hg.con can _ hk).1
    refine (varU_learns (t := t) ho hg hf h).weaken fun σ _ hσ he => ?_
    have hh := hσ.holds sv
    rw [hkn] at hh
    rw [(UConstraint.holds_equiv hf).mp hh, he]
    rfl
  · rename_i v'
    refine (pair_learns ho hg h).weaken fun σ _ hσ he => ?_
    have hh := hσ.holds sv
    rw [hkn] at hh
    rw [he]
    exact hh
  · exact (TcM.panic_ne.mp h).elim

/-! ### variants -/

theorem loop_learns {x lo : Nat} {s s' : Checker} {es : VarMap} (hx : s.known x = .variant lo) (hne : es ≠ [])
    (h : LoopC x lo s s' es) : Learns s s' (fun σ => ∀ e ∈ es, HasVariant σ e.1 e.2 (σ x)) := by
  obtain ⟨hm, _, hst, inner, new, eh, hsub, hmem, _, cl⟩ := h
  refine ⟨hm.good, by rw [hm.len]; exact Nat.le_refl _, fun σ hσ => ?_⟩
  have key : ∀ N, (∀ R ∈ new, R.meas σ < N → R.Hold σ) → sz (σ x) ≤ N → Fits σ s' lo (σ x) := by
    intro N ih hN
    have hk := (cl σ N hσ.aliasOk ih).keepX (hσ.sat N).satV hN lo hx (hst hne)
    have := hσ.holds x
    rw [hk] at this
    exact this
  have all : ∀ N, ∀ R ∈ new, R.meas σ < N → R.Hold σ := by
    intro N
    induction N with
    | zero => intro R _ h; omega
    | succ N ih =>
      intro R hR hN
      by_cases hlt : R.meas σ < N
      · exact ih R hR hlt
      have hme : R.meas σ = N := by omega
      have hs := cl σ N hσ.aliasOk ih
      by_cases hxN : sz (σ x) ≤ N
      · obtain ⟨hb1, hb2, _⟩ := hs.back hxN (key N ih hxN)
        rcases hb2 R hR with h | h
        · exact absurd ⟨R, h, by omega⟩ hb1
        · exact h
      · by_cases hz : sz (σ R.v) = N
        · exact (hs.caseA (by omega) (hσ.sat N)).2 R hR hme hz
        · have hle := Req.meas_le σ R
          cases hl : R.light with
          | none => rw [Req.meas_none hl] at hme; exact absurd hme hz
          | some t =>
            rw [Req.meas_some hl] at hme
            have hzt : sz (t.inst σ) = N := by omega
            obtain ⟨h1, _⟩ := hs.caseB R hR t hl hzt (by omega)
            have := sharp_size hσ h1
            rw [this] at hz
            exact absurd hzt hz
  refine ⟨solves_of_sat (hσ.aliasOk.back hm) fun m v hv => ?_, ?_⟩
  · -- work at a bound above the union as well
    have hN : sz (σ x) ≤ m + sz (σ x) := by omega
    have hs := cl σ (m + sz (σ x)) hσ.aliasOk (all _)
    have hfit := key _ (all _) hN
    obtain ⟨hsv, _⟩ := hs.satV (.inr (.inl ⟨hN, hfit⟩)) (hσ.sat _).satV
    cases hk : s.known v with
    | indefinite => trivial
    | variant id => exact hsv v id hk (by omega)
    | invariant c =>
      obtain ⟨c', hc'⟩ := hm.kind v c hk
      have h1 := hσ.holds v
      rw [hc'] at h1
      have h2 := hs.strong v (σ v) (by omega) (by rw [hc']; exact h1)
      rw [hk] at h2
      exact h2
  · exact ((cl σ _ hσ.aliasOk (all _)).back (Nat.le_refl _) (key _ (all _) (Nat.le_refl _))).2.2.1

theorem setUvarVmid_eq {v id : Nat} {s s' : Checker} {a : Unit} (h : setUvarVmid v id s = .ok (a, s')) :
    s' = { s with constraints := s.constraints.set v (.variant id) } ∧ v < s.constraints.length := by
  unfold setUvarVmid at h
  rw [TcM.bind_eq_ok] at h
  obtain ⟨m, s1, h1, h⟩ := h
  obtain ⟨_, rfl⟩ := getVarmap_eq_ok.mp h1
  rw [TcM.bind_eq_ok] at h
  obtain ⟨c, s1, h2, h⟩ := h
  obtain ⟨_, rfl⟩ := getConstraints_eq_ok.mp h2
  cases c with
  | indefinite => exact ⟨(setConstraints_eq_ok.mp h).2, (setConstraints_eq_ok.mp h).1⟩
  | variant i => exact ⟨(setConstraints_eq_ok.mp h).2, (setConstraints_eq_ok.mp h).1⟩
  | invariant c => exact (TcM.fail_ne.mp h).elim

theorem setAllVmid_eq {id : Nat} : ∀ (vs : List Nat) {s s' : Checker} {a : Unit}, setAllVmid id vs s = .ok (a, s') →
    ∃ cs : List UConstraints, s' = { s with constraints := cs } ∧ cs.length = s.constraints.length ∧
      (∀ i : Nat, i ∉ vs → cs[i]? = s.constraints[i]?) ∧ (∀ i : Nat, i ∈ vs → cs[i]? = some (.variant id))
  | [], s, s', a, h => by
    obtain ⟨_, rfl⟩ := TcM.pure_eq_ok.mp h
    exact ⟨s.constraints, rfl, rfl, fun _ _ => rfl, fun _ h => (nomatch h)⟩
  | v :: vs, s, s', a, h => by
    unfold setAllVmid at h
    rw [TcM.bind_eq_ok] at h
    obtain ⟨_, s1, h1, h⟩ := h
    obtain ⟨rfl, hv⟩ := setUvarVmid_eq h1
    obtain ⟨cs, rfl, hl, ho, hi⟩ := setAllVmid_eq vs h
    refine ⟨cs, rfl, by rw [hl]; simp, fun i hn => ?_, fun i hin => ?_⟩
    · rw [ho i (fun h => hn (.tail _ h))]
      show (s.constraints.set v (.variant id))[i]? = _
      rw [List.getElem?_set_ne (fun e => hn (by rw [e]; exact .head _))]
    · by_cases hvs : i ∈ vs
      · exact hi i hvs
      · rcases List.mem_cons.mp hin with rfl | h
        · rw [ho i hvs]
          show (s.constraints.set i (.variant id))[i]? = _
          rw [List.getElem?_set_self hv]
        · exact absurd h hvs

theorem addVariant_learns (ho : o.Lists) {v : Nat} {l : String} {t : UType} {a : Unit} {s s' : Checker} (hg : Good s)
    (hf : t.Firm) (h : addUvarVariant o n v l t s = .ok (a, s')) : Learns s s' (fun σ => HasVariant σ l t (σ v)) := by
  unfold addUvarVariant at h
  rw [TcM.bind_eq_ok] at h
  obtain ⟨can, s1, h1, h⟩ := h
  obtain ⟨hlt, hcan, rfl⟩ := getCanonicalVar_eq_ok h1
  rw [TcM.bind_eq_ok] at h
  obtain ⟨cs, s1, h2, h⟩ := h
  obtain ⟨hk, rfl⟩ := getConstraints_eq_ok.mp h2
  have hkn : s.known v = cs := known_of_get (by rw [rt, ← hcan]; exact hk)
  cases cs with
  | invariant c => exact (TcM.panic_ne.mp h).elim
  | variant id =>
    dsimp only at h
    have hloop : mergeEntries (unifyUtype o n) v id [(l, t)] s = .ok ((), s') := by
      rw [TcM.bind_eq_ok] at h
      obtain ⟨m, s1, h3, h⟩ := h
      unfold mergeEntries
      rw [TcM.bind_eq_ok]
      refine ⟨m, s1, h3, ?_⟩
      cases hp : TMap.get l m with
      | some prior =>
        rw [hp] at h
        dsimp only
        rw [TcM.bind_eq_ok] at h ⊢
        obtain ⟨u, s2, h4, h⟩ := h
        refine ⟨u, s2, h4, ?_⟩
        rw [TcM.bind_eq_ok] at h ⊢
        obtain ⟨m', s3, h5, h⟩ := h
        refine ⟨m', s3, h5, ?_⟩
        rw [TcM.bind_eq_ok] at h ⊢
        obtain ⟨u', s4, h6, h⟩ := h
        refine ⟨u', s4, h6, ?_⟩
        rw [TcM.bind_eq_ok]
        exact ⟨a, s', h, rfl⟩
      | none =>
        rw [hp] at h
        dsimp only
        rw [TcM.bind_eq_ok] at h ⊢
        obtain ⟨u', s4, h6, h⟩ := h
        refine ⟨u', s4, h6, ?_⟩
        rw [TcM.bind_eq_ok]
        exact ⟨a, s', h, rfl⟩
    have hL := mergeEntries_sound (utype := unifyUtype o n)
      (fun hg h1 h2 h => ⟨((sound ho n).utype hg h1 h2 h).1, ((sound ho n).utype hg h1 h2 h).2.1⟩) (x := v) (lo := id)
      [(l, t)] hg (fun e he => by rw [List.mem_singleton.mp he]; exact hf) (fun w hw => hg.own w v id hw hkn) hloop
    exact (loop_learns (es := [(l, t)]) hkn (by simp) hL).weaken fun σ _ _ hh => hh (l, t) (.head _)
  | indefinite =>
    dsimp only at h
    rw [TcM.bind_eq_ok] at h
    obtain ⟨id, s1, h3, h⟩ := h
    unfold newVarmap at h3
    cases h3
    rw [TcM.bind_eq_ok] at h
    obtain ⟨_, s2, h4, h⟩ := h
    obtain ⟨rfl, hcl⟩ := setUvarVmid_eq h4
    rw [TcM.bind_eq_ok] at h
    obtain ⟨fwd, s3, h5, h⟩ := h
    have hfwd : s3 = { s with
        constraints := s.constraints.set can (.variant s.nextId), nextId := s.nextId + 1,
        store := fun i => if i = s.nextId then some [(l, t)] else s.store i } ∧
        ∀ i ∈ fwd, s.aliases[i]? = some (.backRef can) := by
      unfold getFwdRefs at h5
      dsimp only at h5
      cases hget : s.aliases.get can with
      | panic => rw [hget] at h5; cases h5
      | ok al =>
        rw [hget] at h5
        cases h5
        refine ⟨rfl, fun i hi => ?_⟩
        cases al with
        | ground => cases hi
        | backRef c => cases hi
        | canonical fwd =>
          have : s.aliases[can]? = some (.canonical fwd) := by
            unfold Aliases.get at hget
            cases hs : s.aliases[can]? with
            | none => rw [hs] at hget; cases hget
            | some x => rw [hs] at hget; cases hget; rfl
          exact (hg.wf.fwd can fwd this).2.2 i hi
    obtain ⟨rfl, hback⟩ := hfwd
    obtain ⟨cs, rfl, hcl', hout, hin⟩ := setAllVmid_eq fwd h
    dsimp only at hcl' hout
    have hroot : ∀ w, rt s w ∉ fwd := by
      intro w hw
      have := (Aliases.root_eq_self hg.wf).mp (Aliases.root_root hg.wf w) can
      exact this (hback _ hw)
    have hrc : rt s can = can := by rw [hcan]; exact rt_rt hg v
    have hkc : ∀ w, rt s w = can → cs[rt s w]? = some (.variant s.nextId) := by
      intro w hw
      rw [hout _ (hroot w), hw, List.getElem?_set_self hcl]
    have hko : ∀ w, rt s w ≠ can → cs[rt s w]? = s.constraints[rt s w]? := by
      intro w hw
      rw [hout _ (hroot w), List.getElem?_set_ne (fun e => hw e.symm)]
    have hcases : ∀ (i : Nat) (c : UConstraints), cs[i]? = some c → c = .variant s.nextId ∨ s.constraints[i]? = some c := by
      intro i c hc
      by_cases hi : i ∈ fwd
      · rw [hin i hi] at hc
        cases hc
        exact .inl rfl
      · rw [hout i hi, List.getElem?_set] at hc
        split at hc
        · rename_i e
          subst e
          cases hc; exact .inl rfl
        · exact .inr hc
    generalize hs' : Checker.mk cs s.aliases (fun i => if i = s.nextId then some [(l, t)] else s.store i) (s.nextId + 1)
        s.history = s' at *
    have hrt : ∀ w, rt s' w = rt s w := fun w => by subst hs'; rfl
    have hsa : ∀ v w, s'.Same v w ↔ s.Same v w := fun v w => by subst hs'; exact Iff.rfl
    have hk1 : ∀ w, rt s w = can → s'.known w = .variant s.nextId := fun w hw => by
      refine known_of_get ?_
      rw [hrt]
      subst hs'
      exact hkc w hw
    have hk2 : ∀ w, rt s w ≠ can → s'.known w = s.known w := fun w hw => by
      refine (known_eq_of ?_).symm
      rw [hrt]
      subst hs'
      exact (hko w hw).symm
    have hnew : ∀ w, s.known w ≠ .variant s.nextId := fun w hw =>
      Nat.lt_irrefl _ (hg.fresh _ _ (known_get hw (fun h => nomatch h)))
    have hown : ∀ w, s'.known w = .variant s.nextId → rt s w = can := fun w hw => by
      by_cases h : rt s w = can
      · exact h
      · rw [hk2 w h] at hw; exact absurd hw (hnew w)
    have hst1 : s'.store s.nextId = some [(l, t)] := by subst hs'; exact if_pos rfl
    have hst2 : ∀ id, id ≠ s.nextId → s'.store id = s.store id := fun id hne => by subst hs'; exact if_neg hne
    refine ⟨⟨?_, ?_, ?_, ?_, ?_, ?_⟩, ?_, ?_⟩
    · subst hs'; exact hg.wf
    · subst hs'; show cs.length = s.aliases.length; rw [hcl']; simp [hg.len]
    · intro i c hc
      have hc' : cs[i]? = some (.invariant c) := by subst hs'; exact hc
      rcases hcases i _ hc' with h | h
      · cases h
      · exact hg.con i c h
    · intro id m hm l' t' hl'
      by_cases e : id = s.nextId
      · rw [e, hst1] at hm
        cases hm
        obtain ⟨rfl, rfl⟩ := Prod.mk.inj (List.mem_singleton.mp hl')
        exact hf
      · rw [hst2 id e] at hm
        exact hg.var id m hm l' t' hl'
    · intro v1 v2 id h1 h2
      by_cases e : id = s.nextId
      · subst e
        rw [hsa]
        exact (hown v1 h1).trans (hown v2 h2).symm
      · by_cases c1 : rt s v1 = can
        · rw [hk1 v1 c1] at h1; cases h1; exact absurd rfl e
        · by_cases c2 : rt s v2 = can
          · rw [hk1 v2 c2] at h2; cases h2; exact absurd rfl e
          · rw [hk2 v1 c1] at h1
            rw [hk2 v2 c2] at h2
            exact (hsa _ _).mpr (hg.own v1 v2 id h1 h2)
    · intro i id hi
      have hi' : cs[i]? = some (.variant id) := by subst hs'; exact hi
      have hnx : s'.nextId = s.nextId + 1 := by subst hs'; rfl
      rw [hnx]
      rcases hcases i _ hi' with h | h
      · cases h; omega
      · have := hg.fresh i id h; omega
    · subst hs'; show s.constraints.length ≤ cs.length; rw [hcl']; simp
    · intro σ hσ
      refine ⟨⟨fun v w hw => hσ.same v w ((hsa v w).mpr hw), fun w => ?_⟩, ?_⟩
      · by_cases hw : rt s w = can
        · rw [show s.known w = .indefinite from known_of_get (by rw [hw]; exact hk)]
          trivial
        · have := hσ.holds w
          rw [hk2 w hw] at this
          cases hkw : s.known w with
          | indefinite => trivial
          | invariant c => rw [hkw] at this; exact this
          | variant id =>
            rw [hkw] at this
            obtain ⟨m, hm, hh⟩ := this
            exact ⟨m, by rw [← hst2 id (fun e => hnew w (by rw [hkw, e]))]; exact hm, hh⟩
      · have := hσ.holds v
        rw [hk1 v hcan.symm] at this
        obtain ⟨m, hm, hh⟩ := this
        rw [hst1] at hm
        cases hm
        exact hh l t (by simp [TMap.get])

end Tc
end Doodle
