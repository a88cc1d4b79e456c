import Verif.Lemmas.UnifySound

/-! Unification of projections. -/

namespace Doodle
namespace Tc

open Num (MachineRep BitWidth)

variable {o : Orders} {n : Nat}

theorem nget_insert_self (k x : Nat) : ∀ m, NMap.get k (NMap.insert k x m) = some x
  | [] => by simp [NMap.insert, NMap.get]
  | (k', x') :: m => by
    unfold NMap.insert
    split
    · simp [NMap.get]
    · split
      · simp [NMap.get]
      · rename_i h
        rw [NMap.get, if_neg h]
        exact nget_insert_self k x m

theorem nget_insert_ne {k l : Nat} (x : Nat) (hne : l ≠ k) : ∀ m, NMap.get l (NMap.insert k x m) = NMap.get l m
  | [] => by simp [NMap.insert, NMap.get, hne]
  | (k', x') :: m => by
    unfold NMap.insert
    split
    · rw [NMap.get, if_neg hne]
    · split
      · rename_i h
        subst h
        rw [NMap.get, if_neg hne, NMap.get, if_neg hne]
      · rw [NMap.get, NMap.get, nget_insert_ne x hne m]

theorem nget_mem {k x : Nat} : ∀ {m : List (Nat × Nat)}, NMap.get k m = some x → (k, x) ∈ m
  | (k', x') :: m, h => by
    rw [NMap.get] at h
    split at h
    · rename_i e; cases h; subst e; exact .head _
    · exact .tail _ (nget_mem h)

/-- the variable recorded for a component when two projections are joined -/
def both : Option Nat → Option Nat → Option Nat
  | some v1, some v2 => some (min v1 v2)
  | some v, none => some v
  | none, some v => some v
  | none, none => none

theorem mem_unionKeys {α : Type} [DecidableEq α] {a b : List α} {k : α} : k ∈ unionKeys a b ↔ k ∈ a ∨ k ∈ b := by
  unfold unionKeys
  simp only [List.mem_append, List.mem_filter, List.contains_eq_mem, Bool.not_eq_true', decide_eq_false_iff_not]
  constructor
  · rintro (h | h)
    · exact .inl h
    · exact .inr h.1
  · rintro (h | h)
    · exact .inl h
    · by_cases ha : k ∈ a
      · exact .inl ha
      · exact .inr ⟨h, ha⟩

theorem ixMaps_loop (hS : Sound o n) (t1 t2 : List (Nat × Nat)) : ∀ (ks : List Nat) (acc : List (Nat × Nat)) {res : List (Nat × Nat)}
    {s s' : Checker}, Good s → unifyIxMaps (unifyVarPair o n) t1 t2 ks acc s = .ok (res, s') →
    (∀ k, k ∉ ks → NMap.get k res = NMap.get k acc) ∧
    (∀ k, k ∈ ks → NMap.get k res = both (NMap.get k t1) (NMap.get k t2)) ∧
    Claim s s' (fun σ m new =>
      (∀ k v1 v2, k ∈ ks → NMap.get k t1 = some v1 → NMap.get k t2 = some v2 → σ v1 = σ v2) ∧
      (Heavy σ m new → ∃ k v1 v2, k ∈ ks ∧ NMap.get k t1 = some v1 ∧ NMap.get k t2 = some v2 ∧ m ≤ sz (σ v1)))
  | [], acc, res, s, s', hg, h => by
    obtain ⟨rfl, rfl⟩ := TcM.pure_eq_ok.mp h
    exact ⟨fun _ _ => rfl, fun _ h => (nomatch h), Claim.refl hg fun σ m => ⟨fun _ _ _ h => (nomatch h),
      fun h => (not_heavy_nil h).elim⟩⟩
  | k :: ks, acc, res, s, s', hg, h => by
    unfold unifyIxMaps at h
    have fin : ∀ {w s1 Q}, both (NMap.get k t1) (NMap.get k t2) = some w → Claim s s1 Q →
        (∀ σ m new, Q σ m new → (∀ v1 v2, NMap.get k t1 = some v1 → NMap.get k t2 = some v2 → σ v1 = σ v2) ∧
          (Heavy σ m new → ∃ v1 v2, NMap.get k t1 = some v1 ∧ NMap.get k t2 = some v2 ∧ m ≤ sz (σ v1))) →
        unifyIxMaps (unifyVarPair o n) t1 t2 ks (NMap.insert k w acc) s1 = .ok (res, s') →
        (∀ k', k' ∉ k :: ks → NMap.get k' res = NMap.get k' acc) ∧
        (∀ k', k' ∈ k :: ks → NMap.get k' res = both (NMap.get k' t1) (NMap.get k' t2)) ∧
        Claim s s' (fun σ m new =>
          (∀ k' v1 v2, k' ∈ k :: ks → NMap.get k' t1 = some v1 → NMap.get k' t2 = some v2 → σ v1 = σ v2) ∧
          (Heavy σ m new → ∃ k' v1 v2, k' ∈ k :: ks ∧ NMap.get k' t1 = some v1 ∧ NMap.get k' t2 = some v2 ∧ m ≤ sz (σ v1))) := by
      intro w s1 Q hw hc hQ h
      obtain ⟨ih1, ih2, ih3⟩ := ixMaps_loop hS t1 t2 ks _ hc.1.good h
      refine ⟨fun k' hk => ?_, fun k' hk => ?_, hc.trans ih3 fun σ m n1 n2 _ q1 q2 => ⟨?_, ?_⟩⟩
      · rw [ih1 k' (fun h => hk (.tail _ h)), nget_insert_ne _ (fun (e : k' = k) => hk (by rw [e]; exact .head _))]
      · by_cases hin : k' ∈ ks
        · exact ih2 k' hin
        · rcases List.mem_cons.mp hk with rfl | h
          · rw [ih1 _ hin, nget_insert_self, hw]
          · exact absurd h hin
      · intro k' v1 v2 hk h1 h2
        rcases List.mem_cons.mp hk with rfl | hk
        · exact (hQ σ m n1 q1).1 v1 v2 h1 h2
        · exact q2.1 k' v1 v2 hk h1 h2
      · intro hh
        rcases Heavy.append.mp hh with hh | hh
        · obtain ⟨v1, v2, h1, h2, h3⟩ := (hQ σ m n1 q1).2 hh
          exact ⟨k, v1, v2, .head _, h1, h2, h3⟩
        · obtain ⟨k', v1, v2, h0, h1, h2, h3⟩ := q2.2 hh
          exact ⟨k', v1, v2, .tail _ h0, h1, h2, h3⟩
    have triv : Claim s s (fun _ _ new => new = []) := Claim.refl hg fun _ _ => rfl
    cases hk1 : NMap.get k t1 with
    | none =>
      cases hk2 : NMap.get k t2 with
      | none => rw [hk1, hk2] at h; exact (TcM.panic_ne.mp h).elim
      | some v =>
        rw [hk1, hk2] at h
        refine fin (by rw [hk1, hk2]; rfl) triv ?_ h
        rintro σ m new rfl
        exact ⟨fun _ _ h => by (rw [hk1] at h; cases h), fun h => (not_heavy_nil h).elim⟩
    | some v1 =>
      cases hk2 : NMap.get k t2 with
      | none =>
        rw [hk1, hk2] at h
        refine fin (by rw [hk1, hk2]; rfl) triv ?_ h
        rintro σ m new rfl
        exact ⟨fun _ _ _ h => by (rw [hk2] at h; cases h), fun h => (not_heavy_nil h).elim⟩
      | some v2 =>
        rw [hk1, hk2] at h
        dsimp only at h
        rw [TcM.bind_eq_ok] at h
        obtain ⟨_, s1, hp, h⟩ := h
        refine fin (by rw [hk1, hk2]; rfl) (hS.pair hg hp) ?_ h
        intro σ m new q
        refine ⟨fun a b ha hb => ?_, fun hh => ⟨v1, v2, hk1, hk2, q.2 hh⟩⟩
        rw [hk1] at ha
        rw [hk2] at hb
        cases ha
        cases hb
        exact q.1

theorem fieldMaps_loop (hS : Sound o n) (t1 t2 : List (String × Nat)) : ∀ (ks : List String) (acc : List (String × Nat)) {res : List (String × Nat)}
    {s s' : Checker}, Good s → unifyFieldMaps (unifyVarPair o n) t1 t2 ks acc s = .ok (res, s') →
    (∀ k, k ∉ ks → TMap.get k res = TMap.get k acc) ∧
    (∀ k, k ∈ ks → TMap.get k res = both (TMap.get k t1) (TMap.get k t2)) ∧
    Claim s s' (fun σ m new =>
      (∀ k v1 v2, k ∈ ks → TMap.get k t1 = some v1 → TMap.get k t2 = some v2 → σ v1 = σ v2) ∧
      (Heavy σ m new → ∃ k v1 v2, k ∈ ks ∧ TMap.get k t1 = some v1 ∧ TMap.get k t2 = some v2 ∧ m ≤ sz (σ v1)))
  | [], acc, res, s, s', hg, h => by
    obtain ⟨rfl, rfl⟩ := TcM.pure_eq_ok.mp h
    exact ⟨fun _ _ => rfl, fun _ h => (nomatch h), Claim.refl hg fun σ m => ⟨fun _ _ _ h => (nomatch h),
      fun h => (not_heavy_nil h).elim⟩⟩
  | k :: ks, acc, res, s, s', hg, h => by
    unfold unifyFieldMaps at h
    have fin : ∀ {w s1 Q}, both (TMap.get k t1) (TMap.get k t2) = some w → Claim s s1 Q →
        (∀ σ m new, Q σ m new → (∀ v1 v2, TMap.get k t1 = some v1 → TMap.get k t2 = some v2 → σ v1 = σ v2) ∧
          (Heavy σ m new → ∃ v1 v2, TMap.get k t1 = some v1 ∧ TMap.get k t2 = some v2 ∧ m ≤ sz (σ v1))) →
        unifyFieldMaps (unifyVarPair o n) t1 t2 ks (TMap.insert k w acc) s1 = .ok (res, s') →
        (∀ k', k' ∉ k :: ks → TMap.get k' res = TMap.get k' acc) ∧
        (∀ k', k' ∈ k :: ks → TMap.get k' res = both (TMap.get k' t1) (TMap.get k' t2)) ∧
        Claim s s' (fun σ m new =>
          (∀ k' v1 v2, k' ∈ k :: ks → TMap.get k' t1 = some v1 → TMap.get k' t2 = some v2 → σ v1 = σ v2) ∧
          (Heavy σ m new → ∃ k' v1 v2, k' ∈ k :: ks ∧ TMap.get k' t1 = some v1 ∧ TMap.get k' t2 = some v2 ∧ m ≤ sz (σ v1))) := by
      intro w s1 Q hw hc hQ h
      obtain ⟨ih1, ih2, ih3⟩ := fieldMaps_loop hS t1 t2 ks _ hc.1.good h
      refine ⟨fun k' hk => ?_, fun k' hk => ?_, hc.trans ih3 fun σ m n1 n2 _ q1 q2 => ⟨?_, ?_⟩⟩
      · rw [ih1 k' (fun h => hk (.tail _ h)), tget_insert_ne _ (fun (e : k' = k) => hk (by rw [e]; exact .head _))]
      · by_cases hin : k' ∈ ks
        · exact ih2 k' hin
        · rcases List.mem_cons.mp hk with rfl | h
          · rw [ih1 _ hin, tget_insert_self, hw]
          · exact absurd h hin
      · intro k' v1 v2 hk h1 h2
        rcases List.mem_cons.mp hk with rfl | hk
        · exact (hQ σ m n1 q1).1 v1 v2 h1 h2
        · exact q2.1 k' v1 v2 hk h1 h2
      · intro hh
        rcases Heavy.append.mp hh with hh | hh
        · obtain ⟨v1, v2, h1, h2, h3⟩ := (hQ σ m n1 q1).2 hh
          exact ⟨k, v1, v2, .head _, h1, h2, h3⟩
        · obtain ⟨k', v1, v2, h0, h1, h2, h3⟩ := q2.2 hh
          exact ⟨k', v1, v2, .tail _ h0, h1, h2, h3⟩
    have triv : Claim s s (fun _ _ new => new = []) := Claim.refl hg fun _ _ => rfl
    cases hk1 : TMap.get k t1 with
    | none =>
      cases hk2 : TMap.get k t2 with
      | none => rw [hk1, hk2] at h; exact (TcM.panic_ne.mp h).elim
      | some v =>
        rw [hk1, hk2] at h
        refine fin (by rw [hk1, hk2]; rfl) triv ?_ h
        rintro σ m new rfl
        exact ⟨fun _ _ h => by (rw [hk1] at h; cases h), fun h => (not_heavy_nil h).elim⟩
    | some v1 =>
      cases hk2 : TMap.get k t2 with
      | none =>
        rw [hk1, hk2] at h
        refine fin (by rw [hk1, hk2]; rfl) triv ?_ h
        rintro σ m new rfl
        exact ⟨fun _ _ _ h => by (rw [hk2] at h; cases h), fun h => (not_heavy_nil h).elim⟩
      | some v2 =>
        rw [hk1, hk2] at h
        dsimp only at h
        rw [TcM.bind_eq_ok] at h
        obtain ⟨_, s1, hp, h⟩ := h
        refine fin (by rw [hk1, hk2]; rfl) (hS.pair hg hp) ?_ h
        intro σ m new q
        refine ⟨fun a b ha hb => ?_, fun hh => ⟨v1, v2, hk1, hk2, q.2 hh⟩⟩
        rw [hk1] at ha
        rw [hk2] at hb
        cases ha
        cases hb
        exact q.1

/-! ### a variable and a type -/

/-- what unifying a variable with a type means -/
def VU (v : Nat) (t : UType) (σ : Assignment) (m : Nat) (new : List Req) : Prop :=
  (sz (σ v) < m ∨ sz (t.inst σ) < m → σ v = t.inst σ) ∧ (Heavy σ m new → m ≤ sz (σ v) ∧ m ≤ sz (t.inst σ))

theorem varU_sound (hS : Sound o n) {v : Nat} {t : UType} {a : Unit} {s s' : Checker} (hg : Good s) (hf : t.Firm)
    (h : unifyVarUtypeWith (unifyVarPair o n) (unifyVarConstraint o n) v t s = .ok (a, s')) : Claim s s' (VU v t) := by
  have other : ¬ t.IsVar → (do let _ ← unifyVarConstraint o n v (.equiv t); pure () : TcM Unit) s = .ok (a, s') →
      Claim s s' (VU v t) := by
    intro hv h
    rw [TcM.bind_eq_ok] at h
    obtain ⟨c, s1, h1, h⟩ := h
    obtain ⟨_, rfl⟩ := TcM.pure_eq_ok.mp h
    refine (hS.varC hg (show (UConstraint.equiv t).Ok from ⟨hf, hv⟩) h1).weaken fun σ m new _ q => ⟨fun hh => ?_, fun hh => ?_⟩
    · refine (UConstraint.holds_equiv hf).mp (q.hold ?_)
      rcases hh with h | h
      · exact .inl h
      · exact .inr ⟨t, rfl, h⟩
    · exact ⟨(q.nest hh).1, (q.nest hh).2 t rfl⟩
  unfold unifyVarUtypeWith at h
  cases t with
  | var w =>
    refine (hS.pair hg h).weaken fun σ m new _ q => ⟨fun _ => q.1, fun hh => ?_⟩
    have := q.2 hh
    refine ⟨this, ?_⟩
    show m ≤ sz (σ w)
    rw [← q.1]
    exact this
  | hole => exact hf.elim
  | empty => exact hf.elim
  | _ => exact other id h

/-! ### projections of known types -/

theorem projTuple_sound (hS : Sound o n) (M : List (Nat × Nat)) : ∀ (ts : List UType) (i : Nat) {a : Unit} {s s' : Checker},
    Good s → UType.FirmList ts →
    projTuple (unifyVarUtypeWith (unifyVarPair o n) (unifyVarConstraint o n)) M i ts s = .ok (a, s') →
    Claim s s' (fun σ m new =>
      (∀ (j : Nat) (t : UType) v, ts[j]? = some t → NMap.get (i + j) M = some v →
        (sz (σ v) < m ∨ sz (t.inst σ) < m → σ v = t.inst σ)) ∧
      (Heavy σ m new → ∃ (j : Nat) (t : UType) (v : Nat), ts[j]? = some t ∧ NMap.get (i + j) M = some v ∧
        m ≤ sz (σ v) ∧ m ≤ sz (t.inst σ)))
  | [], i, a, s, s', hg, _, h => by
    obtain ⟨_, rfl⟩ := TcM.pure_eq_ok.mp h
    exact Claim.refl hg fun σ m => ⟨fun j t v h => by (rw [List.getElem?_nil] at h; cases h),
      fun h => (not_heavy_nil h).elim⟩
  | t :: ts, i, a, s, s', hg, hf, h => by
    unfold projTuple at h
    unfold UType.FirmList at hf
    cases hk : NMap.get i M with
    | none =>
      rw [hk] at h
      refine (projTuple_sound hS M ts (i + 1) hg hf.2 h).weaken fun σ m new _ q => ⟨?_, fun hh => ?_⟩
      · intro j t' v hj hv
        cases j with
        | zero => rw [Nat.add_zero, hk] at hv; cases hv
        | succ j =>
          rw [List.getElem?_cons_succ] at hj
          exact q.1 j t' v hj (by rw [← hv]; congr 1; omega)
      · obtain ⟨j, t', v, hj, hv, h3⟩ := q.2 hh
        exact ⟨j + 1, t', v, by rw [List.getElem?_cons_succ]; exact hj, by rw [← hv]; congr 1; omega, h3⟩
    | some w =>
      rw [hk] at h
      dsimp only at h
      rw [TcM.bind_eq_ok] at h
      obtain ⟨_, s1, h1, h⟩ := h
      have c1 := varU_sound hS hg hf.1 h1
      refine c1.trans (projTuple_sound hS M ts (i + 1) c1.1.good hf.2 h) fun σ m n1 n2 _ q1 q => ⟨?_, fun hh => ?_⟩
      · intro j t' v hj hv
        cases j with
        | zero =>
          rw [Nat.add_zero, hk] at hv
          rw [List.getElem?_cons_zero] at hj
          cases hv
          cases hj
          exact q1.1
        | succ j =>
          rw [List.getElem?_cons_succ] at hj
          exact q.1 j t' v hj (by rw [← hv]; congr 1; omega)
      · rcases Heavy.append.mp hh with hh | hh
        · exact ⟨0, t, w, List.getElem?_cons_zero, hk, q1.2 hh⟩
        · obtain ⟨j, t', v, hj, hv, h3⟩ := q.2 hh
          exact ⟨j + 1, t', v, by rw [List.getElem?_cons_succ]; exact hj, by rw [← hv]; congr 1; omega, h3⟩

theorem projRecord_sound (hS : Sound o n) (M : List (String × Nat)) : ∀ (fs : List (String × UType)) {a : Unit}
    {s s' : Checker}, Good s → UType.FirmFields fs →
    projRecord (unifyVarUtypeWith (unifyVarPair o n) (unifyVarConstraint o n)) M fs s = .ok (a, s') →
    Claim s s' (fun σ m new =>
      (∀ l t v, (l, t) ∈ fs → TMap.get l M = some v → (sz (σ v) < m ∨ sz (t.inst σ) < m → σ v = t.inst σ)) ∧
      (Heavy σ m new → ∃ l t v, (l, t) ∈ fs ∧ TMap.get l M = some v ∧ m ≤ sz (σ v) ∧ m ≤ sz (t.inst σ)))
  | [], a, s, s', hg, _, h => by
    obtain ⟨_, rfl⟩ := TcM.pure_eq_ok.mp h
    exact Claim.refl hg fun σ m => ⟨fun j t v h => (nomatch h), fun h => (not_heavy_nil h).elim⟩
  | (l, t) :: fs, a, s, s', hg, hf, h => by
    unfold projRecord at h
    unfold UType.FirmFields at hf
    cases hk : TMap.get l M with
    | none =>
      rw [hk] at h
      refine (projRecord_sound hS M fs hg hf.2 h).weaken fun σ m new _ q => ⟨?_, fun hh => ?_⟩
      · intro l' t' v hj hv
        rcases List.mem_cons.mp hj with e | hj
        · cases e; rw [hk] at hv; cases hv
        · exact q.1 l' t' v hj hv
      · obtain ⟨l', t', v, hj, h3⟩ := q.2 hh
        exact ⟨l', t', v, .tail _ hj, h3⟩
    | some w =>
      rw [hk] at h
      dsimp only at h
      rw [TcM.bind_eq_ok] at h
      obtain ⟨_, s1, h1, h⟩ := h
      have c1 := varU_sound hS hg hf.1 h1
      refine c1.trans (projRecord_sound hS M fs c1.1.good hf.2 h) fun σ m n1 n2 _ q1 q => ⟨?_, fun hh => ?_⟩
      · intro l' t' v hj hv
        rcases List.mem_cons.mp hj with e | hj
        · cases e; rw [hk] at hv; cases hv
          exact q1.1
        · exact q.1 l' t' v hj hv
      · rcases Heavy.append.mp hh with hh | hh
        · exact ⟨l, t, w, .head _, hk, q1.2 hh⟩
        · obtain ⟨l', t', v, hj, h3⟩ := q.2 hh
          exact ⟨l', t', v, .tail _ hj, h3⟩

/-! ### sizes of components -/

theorem size_get {Us : List ValueType} {i : Nat} {T : ValueType} (h : Us[i]? = some T) : sz T < sz (.tuple Us) := by
  have := List.sizeOf_lt_of_mem (List.mem_of_getElem? h)
  show sizeOf T < sizeOf (ValueType.tuple Us)
  rw [ValueType.tuple.sizeOf_spec]
  omega

theorem size_field {Fs : List (String × ValueType)} {l : String} {T : ValueType} (h : TMap.get l Fs = some T) :
    sz T < sz (.record Fs) := by
  have := tget_lt h
  show sizeOf T < sizeOf (ValueType.record Fs)
  rw [ValueType.record.sizeOf_spec]
  omega

theorem size_fields {σ : Assignment} {l : String} {t : UType} : ∀ {fs : List (String × UType)}, (l, t) ∈ fs →
    sz (t.inst σ) < sizeOf (UType.instFields σ fs)
  | (l', t') :: fs, h => by
    rw [UType.instFields, List.cons.sizeOf_spec, Prod.mk.sizeOf_spec]
    rcases List.mem_cons.mp h with e | h
    · cases e
      unfold sz
      omega
    · have := size_fields (σ := σ) h
      omega

theorem size_seq (T : ValueType) : sz T < sz (.seq T) := by
  show sizeOf T < sizeOf (ValueType.seq T)
  rw [ValueType.seq.sizeOf_spec]
  omega

theorem size_option (T : ValueType) : sz T < sz (.option T) := by
  show sizeOf T < sizeOf (ValueType.option T)
  rw [ValueType.option.sizeOf_spec]
  omega

theorem not_sharp_proj {σ : Assignment} {p : ProjShape} {W : ValueType} (h : Sharp σ (.proj p) W) : False := by
  rcases h with ⟨_, h, _⟩ | ⟨_, h, _⟩ | ⟨_, h, _⟩ <;> cases h

/-! ### two projections -/

theorem cq_refl {c : UConstraint} {σ : Assignment} {m : Nat} : CQ c c c σ m [] :=
  ⟨fun _ _ h => ⟨h, h⟩, fun _ _ h => ⟨h, h.holds⟩, fun _ _ h => ⟨h, h.holds⟩, fun h => (not_heavy_nil h).elim⟩

theorem cq_proj {p1 p2 p0 : ProjShape} {σ : Assignment} {m : Nat} {new : List Req}
    (hd : ∀ T, p0.Holds σ T → p1.Holds σ T ∧ p2.Holds σ T)
    (hn : Heavy σ m new → ∀ T, p1.Holds σ T ∨ p2.Holds σ T ∨ p0.Holds σ T → m < sz T) :
    CQ (.proj p1) (.proj p2) (.proj p0) σ m new :=
  ⟨fun T _ h => hd T h, fun _ _ h => (not_sharp_proj h).elim, fun _ _ h => (not_sharp_proj h).elim, hn⟩

theorem projs_sound (ho : o.Lists) (hS : Sound o n) {p1 p2 p0 : ProjShape} {s s' : Checker} (hg : Good s)
    (h : unifyProjs o (unifyVarPair o n) p1 p2 s = .ok (p0, s')) :
    Claim s s' (CQ (.proj p1) (.proj p2) (.proj p0)) := by
  unfold unifyProjs at h
  cases p1 with
  | tupleWith t1 =>
    cases p2 with
    | tupleWith t2 =>
      dsimp only at h
      rw [TcM.ite_eq_ok] at h
      rcases h with ⟨rfl, h⟩ | ⟨_, h⟩
      · obtain ⟨rfl, rfl⟩ := TcM.pure_eq_ok.mp h
        exact Claim.refl hg fun σ m => cq_refl
      rw [TcM.bind_eq_ok] at h
      obtain ⟨t0, s1, h1, h⟩ := h
      obtain ⟨rfl, rfl⟩ := TcM.pure_eq_ok.mp h
      obtain ⟨_, hin, hc⟩ := ixMaps_loop hS t1 t2 _ _ hg h1
      have hmem : ∀ k, k ∈ o.nats (unionKeys (t1.map Prod.fst) (t2.map Prod.fst)) ↔
          k ∈ t1.map Prod.fst ∨ k ∈ t2.map Prod.fst := fun k => ((ho.nats _).mem_iff).trans mem_unionKeys
      have k1 : ∀ {k v}, NMap.get k t1 = some v → k ∈ o.nats (unionKeys (t1.map Prod.fst) (t2.map Prod.fst)) :=
        fun h => (hmem _).mpr (.inl (List.mem_map.mpr ⟨_, nget_mem h, rfl⟩))
      have k2 : ∀ {k v}, NMap.get k t2 = some v → k ∈ o.nats (unionKeys (t1.map Prod.fst) (t2.map Prod.fst)) :=
        fun h => (hmem _).mpr (.inr (List.mem_map.mpr ⟨_, nget_mem h, rfl⟩))
      refine hc.weaken fun σ m new _ q => cq_proj ?_ ?_
      · rintro T ⟨Us, rfl, hU⟩
        refine ⟨⟨Us, rfl, fun i v hv => ?_⟩, ⟨Us, rfl, fun i v hv => ?_⟩⟩
        · have e := hin i (k1 hv)
          cases h2 : NMap.get i t2 with
          | none => rw [hv, h2] at e; exact hU i v e
          | some w =>
            rw [hv, h2] at e
            rw [hU i _ e]
            have := q.1 i v w (k1 hv) hv h2
            rcases Nat.le_total v w with hl | hl
            · rw [Nat.min_eq_left hl]
            · rw [Nat.min_eq_right hl, this]
        · have e := hin i (k2 hv)
          cases h2 : NMap.get i t1 with
          | none => rw [hv, h2] at e; exact hU i v e
          | some w =>
            rw [hv, h2] at e
            rw [hU i _ e]
            have := q.1 i w v (k2 hv) h2 hv
            rcases Nat.le_total w v with hl | hl
            · rw [Nat.min_eq_left hl, this]
            · rw [Nat.min_eq_right hl]
      · intro hh T hT
        obtain ⟨k, v1, v2, hk, h1, h2, hm⟩ := q.2 hh
        have e12 := q.1 k v1 v2 hk h1 h2
        have e0 : NMap.get k t0 = some (min v1 v2) := by rw [hin k hk, h1, h2]; rfl
        have em : σ (min v1 v2) = σ v1 := by
          rcases Nat.le_total v1 v2 with hl | hl
          · rw [Nat.min_eq_left hl]
          · rw [Nat.min_eq_right hl, e12]
        rcases hT with ⟨Us, rfl, hU⟩ | ⟨Us, rfl, hU⟩ | ⟨Us, rfl, hU⟩
        · have := size_get (hU k v1 h1); omega
        · have := size_get (hU k v2 h2); rw [← e12] at this; omega
        · have := size_get (hU k _ e0); rw [em] at this; omega
    | _ => exact (TcM.fail_ne.mp h).elim
  | recordWith t1 =>
    cases p2 with
    | recordWith t2 =>
      dsimp only at h
      rw [TcM.ite_eq_ok] at h
      rcases h with ⟨rfl, h⟩ | ⟨_, h⟩
      · obtain ⟨rfl, rfl⟩ := TcM.pure_eq_ok.mp h
        exact Claim.refl hg fun σ m => cq_refl
      rw [TcM.bind_eq_ok] at h
      obtain ⟨t0, s1, h1, h⟩ := h
      obtain ⟨rfl, rfl⟩ := TcM.pure_eq_ok.mp h
      obtain ⟨_, hin, hc⟩ := fieldMaps_loop hS t1 t2 _ _ hg h1
      have hmem : ∀ k, k ∈ o.labels (unionKeys (t1.map Prod.fst) (t2.map Prod.fst)) ↔
          k ∈ t1.map Prod.fst ∨ k ∈ t2.map Prod.fst := fun k => ((ho.labels _).mem_iff).trans mem_unionKeys
      have k1 : ∀ {k v}, TMap.get k t1 = some v → k ∈ o.labels (unionKeys (t1.map Prod.fst) (t2.map Prod.fst)) :=
        fun h => (hmem _).mpr (.inl (List.mem_map.mpr ⟨_, tget_mem h, rfl⟩))
      have k2 : ∀ {k v}, TMap.get k t2 = some v → k ∈ o.labels (unionKeys (t1.map Prod.fst) (t2.map Prod.fst)) :=
        fun h => (hmem _).mpr (.inr (List.mem_map.mpr ⟨_, tget_mem h, rfl⟩))
      refine hc.weaken fun σ m new _ q => cq_proj ?_ ?_
      · rintro T ⟨Us, rfl, hU⟩
        refine ⟨⟨Us, rfl, fun i v hv => ?_⟩, ⟨Us, rfl, fun i v hv => ?_⟩⟩
        · have e := hin i (k1 hv)
          cases h2 : TMap.get i t2 with
          | none => rw [hv, h2] at e; exact hU i v e
          | some w =>
            rw [hv, h2] at e
            rw [hU i _ e]
            have := q.1 i v w (k1 hv) hv h2
            rcases Nat.le_total v w with hl | hl
            · rw [Nat.min_eq_left hl]
            · rw [Nat.min_eq_right hl, this]
        · have e := hin i (k2 hv)
          cases h2 : TMap.get i t1 with
          | none => rw [hv, h2] at e; exact hU i v e
          | some w =>
            rw [hv, h2] at e
            rw [hU i _ e]
            have := q.1 i w v (k2 hv) h2 hv
            rcases Nat.le_total w v with hl | hl
            · rw [Nat.min_eq_left hl, this]
            · rw [Nat.min_eq_right hl]
      · intro hh T hT
        obtain ⟨k, v1, v2, hk, h1, h2, hm⟩ := q.2 hh
        have e12 := q.1 k v1 v2 hk h1 h2
        have e0 : TMap.get k t0 = some (min v1 v2) := by rw [hin k hk, h1, h2]; rfl
        have em : σ (min v1 v2) = σ v1 := by
          rcases Nat.le_total v1 v2 with hl | hl
          · rw [Nat.min_eq_left hl]
          · rw [Nat.min_eq_right hl, e12]
        rcases hT with ⟨Us, rfl, hU⟩ | ⟨Us, rfl, hU⟩ | ⟨Us, rfl, hU⟩
        · have := size_field (hU k v1 h1); omega
        · have := size_field (hU k v2 h2); rw [← e12] at this; omega
        · have := size_field (hU k _ e0); rw [em] at this; omega
    | _ => exact (TcM.fail_ne.mp h).elim
  | seqOf v1 =>
    cases p2 with
    | seqOf v2 =>
      dsimp only at h
      rw [TcM.bind_eq_ok] at h
      obtain ⟨_, s1, h1, h⟩ := h
      obtain ⟨rfl, rfl⟩ := TcM.pure_eq_ok.mp h
      refine (hS.pair hg h1).weaken fun σ m new _ q => cq_proj ?_ ?_
      · rintro T rfl
        refine ⟨rfl, ?_⟩
        show ValueType.seq (σ v1) = .seq (σ v2)
        rw [q.1]
      · intro hh T hT
        have := q.2 hh
        have hz := size_seq (σ v1)
        have : T = .seq (σ v1) := by
          rcases hT with h | h | h
          · exact h
          · rw [q.1]; exact h
          · exact h
        rw [this]
        omega
    | _ => exact (TcM.fail_ne.mp h).elim
  | optOf v1 =>
    cases p2 with
    | optOf v2 =>
      dsimp only at h
      rw [TcM.bind_eq_ok] at h
      obtain ⟨_, s1, h1, h⟩ := h
      obtain ⟨rfl, rfl⟩ := TcM.pure_eq_ok.mp h
      refine (hS.pair hg h1).weaken fun σ m new _ q => cq_proj ?_ ?_
      · rintro T rfl
        refine ⟨rfl, ?_⟩
        show ValueType.option (σ v1) = .option (σ v2)
        rw [q.1]
      · intro hh T hT
        have := q.2 hh
        have hz := size_option (σ v1)
        have : T = .option (σ v1) := by
          rcases hT with h | h | h
          · exact h
          · rw [q.1]; exact h
          · exact h
        rw [this]
        omega
    | _ => exact (TcM.fail_ne.mp h).elim

/-! ### a projection and a type -/

theorem cq_proj_equiv {p : ProjShape} {t : UType} {σ : Assignment} {m : Nat} {new : List Req} (hf : t.Firm)
    (hd : sz (t.inst σ) ≤ m → p.Holds σ (t.inst σ))
    (hn : Heavy σ m new → m < sz (t.inst σ) ∧ ∀ T, p.Holds σ T → m < sz T) :
    CQ (.proj p) (.equiv t) (.equiv t) σ m new := by
  refine ⟨fun T hT h => ?_, fun _ _ h => (not_sharp_proj h).elim, fun W hW h => ?_, fun hh T hT => ?_⟩
  · have := (UConstraint.holds_equiv hf).mp h
    subst this
    exact ⟨hd hT, h⟩
  · have := sharp_equiv h
    subst this
    exact ⟨h, hd hW⟩
  · obtain ⟨h1, h2⟩ := hn hh
    rcases hT with h | h | h
    · exact h2 T h
    · rw [(UConstraint.holds_equiv hf).mp h]; exact h1
    · rw [(UConstraint.holds_equiv hf).mp h]; exact h1

theorem instList_get (σ : Assignment) (ts : List UType) (i : Nat) :
    (UType.instList σ ts)[i]? = (ts[i]?).map (UType.inst σ) := by
  rw [instList_eq_map, List.getElem?_map]

theorem proj_utype_sound (hS : Sound o n) {p : ProjShape} {t : UType} {c0 : UConstraint} {s s' : Checker} (hg : Good s)
    (hf : t.Firm) (hv : ¬ t.IsVar)
    (h : unifyProjUtype (unifyVarPair o n) (unifyVarConstraint o n) p t s = .ok (c0, s')) :
    c0 = .equiv t ∧ Claim s s' (CQ (.proj p) (.equiv t) (.equiv t)) := by
  unfold unifyProjUtype at h
  cases t with
  | var v => exact (hv trivial).elim
  | hole => exact hf.elim
  | empty => exact hf.elim
  | record fs =>
    cases p with
    | recordWith M =>
      dsimp only at h
      rw [TcM.bind_eq_ok] at h
      obtain ⟨_, s1, h1, h⟩ := h
      rw [TcM.ite_eq_ok] at h
      replace h := h.resolve_right fun h => (TcM.fail_ne.mp h.2).elim
      obtain ⟨hall, h⟩ := h
      obtain ⟨rfl, rfl⟩ := TcM.pure_eq_ok.mp h
      refine ⟨rfl, (projRecord_sound hS M fs hg hf h1).weaken fun σ m new _ q => cq_proj_equiv hf (fun hm => ?_) fun hh => ?_⟩
      · refine ⟨_, rfl, fun l v hl => ?_⟩
        have hin := List.all_eq_true.mp hall (l, v) (tget_mem hl)
        rw [List.contains_eq_mem, decide_eq_true_eq, List.mem_map] at hin
        obtain ⟨⟨l', t0⟩, hmem, rfl⟩ := hin
        obtain ⟨t, ht⟩ := mem_tget hmem
        rw [instFields_get, ht]
        have hz : sz (t.inst σ) < sz ((UType.record fs).inst σ) :=
          size_field (by rw [instFields_get, ht]; rfl)
        have := q.1 l' t v (tget_mem ht) hl (.inr (by omega))
        rw [this]
        rfl
      · obtain ⟨l, t, v, hmem, hl, hm1, hm2⟩ := q.2 hh
        refine ⟨?_, ?_⟩
        · have := size_fields (σ := σ) hmem
          show m < sizeOf (ValueType.record (UType.instFields σ fs))
          rw [ValueType.record.sizeOf_spec]
          omega
        · rintro T ⟨Fs, rfl, hF⟩
          have := size_field (hF l v hl)
          omega
    | _ => exact (TcM.panic_ne.mp h).elim
  | tuple ts =>
    cases p with
    | tupleWith M =>
      dsimp only at h
      rw [TcM.bind_eq_ok] at h
      obtain ⟨_, s1, h1, h⟩ := h
      rw [TcM.ite_eq_ok] at h
      replace h := h.resolve_right fun h => (TcM.fail_ne.mp h.2).elim
      obtain ⟨hall, h⟩ := h
      obtain ⟨rfl, rfl⟩ := TcM.pure_eq_ok.mp h
      refine ⟨rfl, (projTuple_sound hS M ts 0 hg hf h1).weaken fun σ m new _ q => cq_proj_equiv hf (fun hm => ?_) fun hh => ?_⟩
      · refine ⟨_, rfl, fun i v hl => ?_⟩
        have hin := of_decide_eq_true (List.all_eq_true.mp hall (i, v) (nget_mem hl))
        have ht : ts[i]? = some ts[i] := List.getElem?_eq_getElem hin
        rw [instList_get, ht]
        have hz : sz (ts[i].inst σ) < sz ((UType.tuple ts).inst σ) :=
          size_get (i := i) (by rw [instList_get, ht]; rfl)
        have := q.1 i ts[i] v ht (by rw [Nat.zero_add]; exact hl) (.inr (by omega))
        rw [this]
        rfl
      · obtain ⟨j, t, v, hj, hl, hm1, hm2⟩ := q.2 hh
        rw [Nat.zero_add] at hl
        refine ⟨?_, ?_⟩
        · have : sz (t.inst σ) < sz ((UType.tuple ts).inst σ) := size_get (i := j) (by rw [instList_get, hj]; rfl)
          omega
        · rintro T ⟨Fs, rfl, hF⟩
          have := size_get (hF j v hl)
          omega
    | _ => exact (TcM.panic_ne.mp h).elim
  | seq t k =>
    cases p with
    | seqOf v =>
      dsimp only at h
      rw [TcM.bind_eq_ok] at h
      obtain ⟨_, s1, h1, h⟩ := h
      obtain ⟨rfl, rfl⟩ := TcM.pure_eq_ok.mp h
      refine ⟨rfl, (varU_sound (t := t) hS hg hf h1).weaken fun σ m new _ q => cq_proj_equiv hf (fun hm => ?_) fun hh => ?_⟩
      · show ValueType.seq (t.inst σ) = .seq (σ v)
        have : sz (t.inst σ) < sz ((UType.seq t k).inst σ) := size_seq _
        rw [q.1 (.inr (by omega))]
      · obtain ⟨a, b⟩ := q.2 hh
        refine ⟨?_, ?_⟩
        · have : sz (t.inst σ) < sz ((UType.seq t k).inst σ) := size_seq _
          omega
        · rintro T rfl
          have := size_seq (σ v)
          omega
    | _ => exact (TcM.panic_ne.mp h).elim
  | option t =>
    cases p with
    | optOf v =>
      dsimp only at h
      rw [TcM.bind_eq_ok] at h
      obtain ⟨_, s1, h1, h⟩ := h
      obtain ⟨rfl, rfl⟩ := TcM.pure_eq_ok.mp h
      refine ⟨rfl, (varU_sound (t := t) hS hg hf h1).weaken fun σ m new _ q => cq_proj_equiv hf (fun hm => ?_) fun hh => ?_⟩
      · show ValueType.option (t.inst σ) = .option (σ v)
        have : sz (t.inst σ) < sz ((UType.option t).inst σ) := size_option _
        rw [q.1 (.inr (by omega))]
      · obtain ⟨a, b⟩ := q.2 hh
        refine ⟨?_, ?_⟩
        · have : sz (t.inst σ) < sz ((UType.option t).inst σ) := size_option _
          omega
        · rintro T rfl
          have := size_option (σ v)
          omega
    | _ => exact (TcM.panic_ne.mp h).elim
  | _ => cases p <;> exact (TcM.panic_ne.mp h).elim

/-! ### two constraints -/

theorem utype_elem_sound {varC : Nat → UConstraint → TcM UConstraint} {t : UType} {bs : BaseSet} {c0 : UConstraint}
    {s s' : Checker} (hg : Good s) (hf : t.Firm) (hv : ¬ t.IsVar) (h : unifyUtypeBasesetWith varC t bs s = .ok (c0, s')) :
    c0.Ok ∧ Claim s s' (CQ (.equiv t) (.elem bs) c0) := by
  unfold unifyUtypeBasesetWith at h
  cases t with
  | var v => exact (hv trivial).elim
  | hole => exact hf.elim
  | int p =>
    have hl := fun σ => (leaf_int_elem (σ := σ) h)
    obtain rfl := (hl fun _ => .any).2
    exact ⟨(hl fun _ => .any).1.ok, Claim.refl hg fun σ m => (hl σ).1.cq⟩
  | base b =>
    dsimp only at h
    rw [TcM.bind_eq_ok] at h
    obtain ⟨r, s1, h1, h⟩ := h
    obtain ⟨rfl, rfl⟩ := TcM.pure_eq_ok.mp h
    obtain ⟨h1', rfl⟩ := unifyBasesets_eq_ok h1
    exact ⟨(leaf_base_elem (σ := fun _ => .any) h1').ok, Claim.refl hg fun σ m => (leaf_base_elem h1').cq⟩
  | _ => exact (TcM.fail_ne.mp h).elim

theorem utype_num_sound {varC : Nat → UConstraint → TcM UConstraint} {t : UType} {is : IntSet} {c0 : UConstraint}
    {s s' : Checker} (hg : Good s) (hf : t.Firm) (hv : ¬ t.IsVar) (h : unifyUtypeIntsetWith varC t is s = .ok (c0, s')) :
    c0.Ok ∧ Claim s s' (CQ (.equiv t) (.numTree is) c0) := by
  unfold unifyUtypeIntsetWith at h
  cases t with
  | var v => exact (hv trivial).elim
  | hole => exact hf.elim
  | base p =>
    have hl := fun σ => (leaf_base_num (σ := σ) h)
    obtain rfl := (hl fun _ => .any).2
    exact ⟨(hl fun _ => .any).1.ok, Claim.refl hg fun σ m => (hl σ).1.cq⟩
  | int b =>
    dsimp only at h
    rw [TcM.bind_eq_ok] at h
    obtain ⟨r, s1, h1, h⟩ := h
    obtain ⟨rfl, rfl⟩ := TcM.pure_eq_ok.mp h
    obtain ⟨h1', rfl⟩ := TcM.ofOption_eq_ok.mp h1
    exact ⟨(leaf_int_num (σ := fun _ => .any) h1').ok, Claim.refl hg fun σ m => (leaf_int_num h1').cq⟩
  | _ => exact (TcM.fail_ne.mp h).elim

theorem elem_num_sound {bs : BaseSet} {is : IntSet} {c0 : UConstraint}
    {s s' : Checker} (hg : Good s) (h : unifyBasesetIntset bs is s = .ok (c0, s')) :
    c0.Ok ∧ Claim s s' (CQ (.elem bs) (.numTree is) c0) := by
  have hl := fun σ => (leaf_elem_num (σ := σ) h)
  obtain rfl := (hl fun _ => .any).2
  exact ⟨(hl fun _ => .any).1.ok, Claim.refl hg fun σ m => (hl σ).1.cq⟩

theorem uqs_cq {t1 t2 t0 : UType} {σ : Assignment} {m : Nat} {new : List Req} (f1 : t1.Firm) (f2 : t2.Firm) (f0 : t0.Firm)
    (n0 : ¬ t0.IsVar) (q : UQs t1 t2 t0 σ m new) : CQ (.equiv t1) (.equiv t2) (.equiv t0) σ m new := by
  refine ⟨fun T hT h => ?_, fun W hW h => ?_, fun W hW h => ?_, fun hh T hT => ?_⟩
  · rw [UConstraint.holds_equiv f0] at h
    subst h
    obtain ⟨a, b⟩ := q.both hT
    rw [UConstraint.holds_equiv f1, UConstraint.holds_equiv f2]
    exact ⟨by rw [a, b], b⟩
  · have := sharp_equiv h
    subst this
    obtain ⟨a, b⟩ := q.left hW
    refine ⟨.inl ⟨t0, rfl, f0, n0, by rw [a, b]⟩, (UConstraint.holds_equiv f2).mpr a⟩
  · have := sharp_equiv h
    subst this
    obtain ⟨a, b⟩ := q.right hW
    refine ⟨.inl ⟨t0, rfl, f0, n0, b⟩, (UConstraint.holds_equiv f1).mpr a.symm⟩
  · obtain ⟨a, b, c⟩ := q.nest hh
    rw [UConstraint.holds_equiv f1, UConstraint.holds_equiv f2, UConstraint.holds_equiv f0] at hT
    rcases hT with rfl | rfl | rfl
    · exact a
    · exact b
    · exact c

theorem cpair_sound (ho : o.Lists) (hS : Sound o n) {c1 c2 c0 : UConstraint} {s s' : Checker} (hg : Good s) (h1 : c1.Ok)
    (h2 : c2.Ok) (h : unifyConstraintPair o (n + 1) c1 c2 s = .ok (c0, s')) : c0.Ok ∧ Claim s s' (CQ c1 c2 c0) := by
  have flip : c0.Ok ∧ Claim s s' (CQ c2 c1 c0) → c0.Ok ∧ Claim s s' (CQ c1 c2 c0) := fun hh =>
    ⟨hh.1, hh.2.weaken fun _ _ _ _ q => q.symm⟩
  unfold unifyConstraintPair at h
  cases c1 with
  | equiv t1 =>
    cases c2 with
    | equiv t2 =>
      dsimp only at h
      rw [TcM.ite_eq_ok] at h
      rcases h with ⟨rfl, h⟩ | ⟨_, h⟩
      · obtain ⟨rfl, rfl⟩ := TcM.pure_eq_ok.mp h
        exact ⟨h1, Claim.refl hg fun σ m => cq_refl⟩
      · rw [TcM.bind_eq_ok] at h
        obtain ⟨t0, s1, hu, h⟩ := h
        obtain ⟨rfl, rfl⟩ := TcM.pure_eq_ok.mp h
        obtain ⟨f0, _, hs⟩ := hS.utype hg h1.1 h2.1 hu
        obtain ⟨n0, hc⟩ := hs h1.2 h2.2
        exact ⟨⟨f0, n0⟩, hc.weaken fun σ m new _ q => uqs_cq h1.1 h2.1 f0 n0 q⟩
    | elem bs => exact utype_elem_sound hg h1.1 h1.2 h
    | proj p =>
      obtain ⟨rfl, hc⟩ := proj_utype_sound hS hg h1.1 h1.2 h
      exact flip ⟨h1, hc⟩
    | numTree is => exact utype_num_sound hg h1.1 h1.2 h
  | elem b1 =>
    cases c2 with
    | equiv t => exact flip (utype_elem_sound hg h2.1 h2.2 h)
    | elem b2 =>
      dsimp only at h
      rw [TcM.bind_eq_ok] at h
      obtain ⟨r, s1, hu, h⟩ := h
      obtain ⟨rfl, rfl⟩ := TcM.pure_eq_ok.mp h
      obtain ⟨h1', rfl⟩ := unifyBasesets_eq_ok hu
      exact ⟨(leaf_elem_elem (σ := fun _ => .any) h1').ok, Claim.refl hg fun σ m => (leaf_elem_elem h1').cq⟩
    | proj p => exact (TcM.fail_ne.mp h).elim
    | numTree is => exact elem_num_sound hg h
  | proj p =>
    cases c2 with
    | equiv t =>
      obtain ⟨rfl, hc⟩ := proj_utype_sound hS hg h2.1 h2.2 h
      exact ⟨h2, hc⟩
    | elem b2 => exact (TcM.fail_ne.mp h).elim
    | proj p2 =>
      dsimp only at h
      rw [TcM.bind_eq_ok] at h
      obtain ⟨p0, s1, hu, h⟩ := h
      obtain ⟨rfl, rfl⟩ := TcM.pure_eq_ok.mp h
      exact ⟨trivial, projs_sound ho hS hg hu⟩
    | numTree is => exact (TcM.fail_ne.mp h).elim
  | numTree i1 =>
    cases c2 with
    | equiv t => exact flip (utype_num_sound hg h2.1 h2.2 h)
    | elem b2 => exact flip (elem_num_sound hg h)
    | proj p => exact (TcM.fail_ne.mp h).elim
    | numTree i2 =>
      dsimp only at h
      rw [TcM.ite_eq_ok] at h
      rcases h with ⟨rfl, h⟩ | ⟨_, h⟩
      · obtain ⟨rfl, rfl⟩ := TcM.pure_eq_ok.mp h
        exact ⟨trivial, Claim.refl hg fun σ m => cq_refl⟩
      · rw [TcM.bind_eq_ok] at h
        obtain ⟨r, s1, hu, h⟩ := h
        obtain ⟨rfl, rfl⟩ := TcM.pure_eq_ok.mp h
        obtain ⟨h1', rfl⟩ := TcM.ofOption_eq_ok.mp hu
        exact ⟨trivial, Claim.refl hg fun σ m => (leaf_num_num h1').cq⟩

/-- the four functions lose nothing, whatever the bound on the recursion -/
theorem sound (ho : o.Lists) : ∀ n, Sound o n
  | 0 => Sound.zero o
  | n + 1 =>
    have hS := sound ho n
    ⟨fun hg h1 h2 h => utype_sound hS hg h1 h2 h, fun hg hc h => varC_sound hS.cpair hg hc h,
      fun hg h1 h2 h => cpair_sound ho hS hg h1 h2 h,
      fun hg h => pair_sound ho (fun hg h1 h2 h => ⟨(hS.utype hg h1 h2 h).1, (hS.utype hg h1 h2 h).2.1⟩) hS.cpair hg h⟩

end Tc
end Doodle
