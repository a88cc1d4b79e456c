import Verif.Lemmas.UnifyStep

/-! Merging the variants of two unions: the loop over the entries. -/

namespace Doodle
namespace Tc

/-! ### maps -/

theorem tget_insert_self {α : Type} (k : String) (x : α) : ∀ m, TMap.get k (TMap.insert k x m) = some x
  | [] => by simp [TMap.insert, TMap.get]
  | (k', x') :: m => by
    unfold TMap.insert
    split
    · simp [TMap.get]
    · split
      · simp [TMap.get]
      · rename_i h
        rw [TMap.get, if_neg h]
        exact tget_insert_self k x m

theorem tget_insert_ne {α : Type} {k l : String} (x : α) (hne : l ≠ k) :
    ∀ m, TMap.get l (TMap.insert k x m) = TMap.get l m
  | [] => by simp [TMap.insert, TMap.get, hne]
  | (k', x') :: m => by
    unfold TMap.insert
    split
    · rw [TMap.get, if_neg hne]
    · split
      · rename_i h
        subst h
        rw [TMap.get, if_neg hne, TMap.get, if_neg hne]
      · rw [TMap.get, TMap.get, tget_insert_ne x hne m]

theorem tget_mem {α : Type} {k : String} {x : α} : ∀ {m : List (String × α)}, TMap.get k m = some x → (k, x) ∈ m
  | (k', x') :: m, h => by
    rw [TMap.get] at h
    split at h
    · rename_i e; cases h; subst e; exact .head _
    · exact .tail _ (tget_mem h)

theorem mem_tget {α : Type} {k : String} {x : α} : ∀ {m : List (String × α)}, (k, x) ∈ m → ∃ y, TMap.get k m = some y
  | (k', x') :: m, h => by
    rw [TMap.get]
    split
    · exact ⟨_, rfl⟩
    · rename_i hne
      rcases List.mem_cons.mp h with h | h
      · cases h; exact absurd rfl hne
      · exact mem_tget h

theorem mem_tinsert {α : Type} {k l : String} {x y : α} : ∀ {m : List (String × α)}, (l, y) ∈ TMap.insert k x m →
    (l = k ∧ y = x) ∨ (l, y) ∈ m
  | [], h => by
    simp only [TMap.insert, List.mem_singleton, Prod.mk.injEq] at h
    exact .inl h
  | (k', x') :: m, h => by
    unfold TMap.insert at h
    split at h
    · rcases List.mem_cons.mp h with h | h
      · cases h; exact .inl ⟨rfl, rfl⟩
      · exact .inr h
    · split at h
      · rcases List.mem_cons.mp h with h | h
        · cases h; exact .inl ⟨rfl, rfl⟩
        · exact .inr (.tail _ h)
      · rcases List.mem_cons.mp h with h | h
        · cases h; exact .inr (.head _)
        · rcases mem_tinsert h with h | h
          · exact .inl h
          · exact .inr (.tail _ h)

theorem tget_lt {k : String} {U : ValueType} : ∀ {bs : List (String × ValueType)}, TMap.get k bs = some U → sizeOf U < sizeOf bs
  | (k', x) :: bs, h => by
    rw [TMap.get] at h
    split at h
    · cases h
      simp only [List.cons.sizeOf_spec, Prod.mk.sizeOf_spec]
      omega
    · have := tget_lt h
      simp only [List.cons.sizeOf_spec]
      omega

theorem HasVariant.lt {σ : Assignment} {l : String} {t : UType} {T : ValueType} (h : HasVariant σ l t T) :
    sz (t.inst σ) < sz T := by
  obtain ⟨bs, U, rfl, hg, rfl⟩ := h
  have := tget_lt hg
  show sizeOf (t.inst σ) < sizeOf (ValueType.union bs)
  simp only [ValueType.union.sizeOf_spec]
  omega

theorem HasVariant.inst {σ : Assignment} {l : String} {t t' : UType} {T : ValueType} (h : HasVariant σ l t T)
    (he : t'.inst σ = t.inst σ) : HasVariant σ l t' T := by
  obtain ⟨bs, U, h1, hg, h2⟩ := h
  exact ⟨bs, U, h1, hg, h2.trans he.symm⟩

/-! ### the loop -/

/-- what unifying two types means -/
structure UQ (t1 t2 t0 : UType) (σ : Assignment) (m : Nat) (new : List Req) : Prop where
  left : sz (t1.inst σ) < m → t1.inst σ = t2.inst σ ∧ t0.inst σ = t2.inst σ
  right : sz (t2.inst σ) < m → t1.inst σ = t2.inst σ ∧ t0.inst σ = t2.inst σ
  both : sz (t0.inst σ) < m → t1.inst σ = t2.inst σ ∧ t0.inst σ = t2.inst σ
  nest : Heavy σ m new → m ≤ sz (t1.inst σ) ∧ m ≤ sz (t2.inst σ) ∧ m ≤ sz (t0.inst σ)

/-- the variants stored under an identifier fit a type -/
def Fits (σ : Assignment) (s : Checker) (id : Nat) (T : ValueType) : Prop :=
  (UConstraints.variant id).Holds σ s.store T

/-- what the loop does, for one solution -/
structure LoopS (σ : Assignment) (m x lo : Nat) (s s' : Checker) (es : VarMap) (inner new : List Req) : Prop where
  strong : ∀ v T, sz T ≤ m → HoldsI σ (s'.known v) T → HoldsI σ (s.known v) T
  persist : ∀ v W, sz W ≤ m → SharpI σ (s.known v) W →
    SharpI σ (s'.known v) W ∧ ∀ w, s'.Same w v → HoldsI σ (s.known w) W
  caseB : ∀ R ∈ new, ∀ t, R.light = some t → sz (t.inst σ) = m → m < sz (σ R.v) →
    SharpI σ (s'.known R.v) (t.inst σ) ∧ ∀ w, s'.Same w R.v → HoldsI σ (s.known w) (t.inst σ)
  joined : ∀ v w, ¬ s.Same v w → s'.Same v w → Touch σ inner v
  kept : ∀ v id, s.known v = .variant id → s'.known v = .variant id ∨ Touch σ inner v
  stored : ∀ id, id ≠ lo → s'.store id = s.store id ∨ ∃ v, s.known v = .variant id ∧ Touch σ inner v
  nest : Heavy σ m new → m ≤ sz (σ x)
  back : sz (σ x) ≤ m → Fits σ s' lo (σ x) → ¬ Heavy σ (sz (σ x)) inner ∧ (∀ R ∈ new, R ∈ inner ∨ R.Hold σ) ∧
    (∀ e ∈ es, HasVariant σ e.1 e.2 (σ x)) ∧ Fits σ s lo (σ x)
  satV : m < sz (σ x) ∨ (sz (σ x) ≤ m ∧ Fits σ s' lo (σ x)) ∨ (∀ v, s.known v ≠ .variant lo) →
    SatV σ m s' → SatV σ m s ∧
    ∀ v id, s.known v = .variant id → sz (σ v) ≤ m → s'.known v = .variant id ∨ s'.store id = none
  keepX : SatV σ m s' → sz (σ x) ≤ m → ∀ id, s.known x = .variant id → s'.store id ≠ none → s'.known x = .variant id
  caseA : m < sz (σ x) → Sat σ m s' → Sat σ m s ∧ ∀ R ∈ new, R.meas σ = m → sz (σ R.v) = m → R.Hold σ

/-- what the loop does -/
def LoopC (x lo : Nat) (s s' : Checker) (es : VarMap) : Prop :=
  Mono s s' ∧ (es = [] → s' = s) ∧ (es ≠ [] → s'.store lo ≠ none) ∧
    ∃ inner new, s'.history = s.history ++ new ∧ (∀ R ∈ inner, R ∈ new) ∧
      (∀ R ∈ new, R ∈ inner ∨ (R.v = x ∧ R.light = none)) ∧ (es ≠ [] → ∃ R ∈ new, R.v = x ∧ R.light = none) ∧
      ∀ σ m, AliasOk σ s' → (∀ R ∈ new, R.meas σ < m → R.Hold σ) → LoopS σ m x lo s s' es inner new

theorem LoopC.nil {x lo : Nat} {s : Checker} (hg : Good s) : LoopC x lo s s [] := by
  refine ⟨Mono.refl hg, fun _ => rfl, fun h => (h rfl).elim, [], [], by simp, (fun _ h => nomatch h),
    (fun _ h => nomatch h), fun h => (h rfl).elim, fun σ m _ _ => ?_⟩
  have h := Step.refl (σ := σ) (m := m) (st := s)
  exact ⟨h.strong, h.persist, h.caseB, h.joined, h.kept, fun id _ => h.stored id,
    fun h => (not_heavy_nil h).elim, fun _ hf => ⟨not_heavy_nil, (fun _ h => nomatch h), (fun _ h => nomatch h), hf⟩,
    fun _ hs => ⟨hs, fun _ _ h _ => .inl h⟩, fun _ _ _ h _ => h, fun _ hs => ⟨hs, (fun _ h => nomatch h)⟩⟩

/-- the state after an entry has been written -/
def wrote (s : Checker) (lo : Nat) (m : VarMap) (R : Req) : Checker :=
  { s with store := fun i => if i = lo then some m else s.store i, history := s.history ++ [R] }

theorem loop_step {x lo : Nat} {s sm s' : Checker} {c c' : VarMap} {l : String} {t w u : UType} {es : VarMap}
    (hlo : ∀ v, s.known v = .variant lo → s.Same v x)
    (hD : Claim s sm (UQ w t u)) (hu : u.Firm)
    (hs : s.store lo = some c) (hw : TMap.get l c = some w ∨ TMap.get l c = none)
    (hsm : sm.store lo = some c')
    (hL : LoopC x lo (wrote sm lo (TMap.insert l u c') ⟨x, none, [.ent l u]⟩) s' es)
    : LoopC x lo s s' ((l, t) :: es) := by
  obtain ⟨m1, nD, eD, clD⟩ := hD
  obtain ⟨m2, hnil, hsome, inner, new, eh, hsub, hmem, _, cl⟩ := hL
  generalize hs1 : wrote sm lo (TMap.insert l u c') ⟨x, none, [.ent l u]⟩ = s1 at *
  have hk1 : ∀ v, s1.known v = sm.known v := fun v => by subst hs1; rfl
  have hsa1 : ∀ v w, s1.Same v w ↔ sm.Same v w := fun v w => by subst hs1; exact Iff.rfl
  have hst1 : s1.store lo = some (TMap.insert l u c') := by subst hs1; simp [wrote]
  have hst2 : ∀ id, id ≠ lo → s1.store id = sm.store id := fun id h => by subst hs1; simp [wrote, h]
  have hg1 : Good s1 := by
    subst hs1
    refine ⟨m1.good.wf, m1.good.len, m1.good.con, fun id mm h l' t' hl' => ?_, m1.good.own, m1.good.fresh⟩
    by_cases e : id = lo
    · subst e
      simp only [wrote, if_true, Option.some.injEq] at h
      subst h
      rcases mem_tinsert hl' with ⟨_, rfl⟩ | h
      · exact hu
      · exact m1.good.var _ _ hsm _ _ h
    · simp only [wrote, if_neg e] at h
      exact m1.good.var _ _ h _ _ hl'
  have mi : Mono sm s1 := by
    refine ⟨hg1, fun v w h => (hsa1 v w).mpr h, by subst hs1; rfl, by subst hs1; rfl,
      fun v' id h => ⟨v', by rw [← hk1]; exact h, rfl⟩, fun id h => ?_, fun v cc h => ⟨cc, by rw [hk1]; exact h⟩⟩
    by_cases e : id = lo
    · subst e; rw [hsm] at h; cases h
    · rw [hst2 id e]; exact h
  have mm := (m1.trans mi).trans m2
  refine ⟨mm, (fun h => nomatch h), fun _ hn => ?_, nD ++ inner, nD ++ [⟨x, none, [.ent l u]⟩] ++ new, ?_, ?_, ?_, ?_,
    fun σ m ha ih => ?_⟩
  · cases hes : es with
    | nil => rw [hnil hes, hst1] at hn; cases hn
    | cons e es' => exact hsome (by rw [hes]; intro h; cases h) hn
  · rw [eh]
    have : s1.history = sm.history ++ [⟨x, none, [.ent l u]⟩] := by subst hs1; rfl
    rw [this, eD]
    simp only [List.append_assoc]
  · intro R hR
    rcases List.mem_append.mp hR with h | h
    · simp [h]
    · simp [hsub R h]
  · intro R hR
    rw [List.append_assoc] at hR
    rcases List.mem_append.mp hR with h | h
    · exact .inl (by simp [h])
    · rcases List.mem_append.mp h with h | h
      · rw [List.mem_singleton] at h
        subst h
        exact .inr ⟨rfl, rfl⟩
      · rcases hmem R h with h | h
        · exact .inl (by simp [h])
        · exact .inr h
  · exact fun _ => ⟨⟨x, none, [.ent l u]⟩, by simp, rfl, rfl⟩
  -- one solution
  have ha1 : AliasOk σ s1 := ha.back m2
  have ham : AliasOk σ sm := fun v w h => ha1 v w ((hsa1 v w).mpr h)
  have ha0 : AliasOk σ s := ham.back m1
  have ihD : ∀ m', m' ≤ m → ∀ R ∈ nD, R.meas σ < m' → R.Hold σ := fun m' hm' R hR hlt =>
    ih R (by simp [hR]) (Nat.lt_of_lt_of_le hlt hm')
  obtain ⟨SD, q⟩ := clD σ m ham (ihD m (Nat.le_refl _))
  have qk : ∀ m', m' ≤ m → UQ w t u σ m' nD := fun m' hm' => (clD σ m' ham (ihD m' hm')).2
  have L := cl σ m ha fun R hR => ih R (by simp [hR])
  have hox : ∀ v, sm.known v = .variant lo → σ v = σ x := by
    intro v hv
    obtain ⟨v0, h0, h1⟩ := m1.owns v lo hv
    rw [← ham _ _ h1]
    exact ha0 _ _ (hlo v0 h0)
  have touchHeavy : ∀ {n}, Touch σ n x → Heavy σ (sz (σ x)) n := by
    rintro n ⟨R, hR, hl, he⟩
    exact ⟨R, hR, by rw [Req.meas_none hl, he]; exact Nat.le_refl _⟩
  have back1 : sz (σ x) ≤ m → Fits σ s1 lo (σ x) → ¬ Heavy σ (sz (σ x)) nD ∧ HasVariant σ l u (σ x) ∧
      HasVariant σ l t (σ x) ∧ c' = c ∧ Fits σ s lo (σ x) ∧ sz (u.inst σ) < sz (σ x) := by
    rintro hk ⟨cc, hcc, hf⟩
    rw [hst1] at hcc
    cases hcc
    have hu' := hf l u (tget_insert_self l u c')
    have hlt := hu'.lt
    have hnh : ¬ Heavy σ (sz (σ x)) nD := fun hh => by
      have := ((qk _ hk).nest hh).2.2
      omega
    have hcc : c' = c := by
      rcases SD.stored lo with h | ⟨v, hv, ht⟩
      · rw [h, hs] at hsm; cases hsm; rfl
      · exact (hnh (touchHeavy (ht.congr (ha0 _ _ (hlo v hv))))).elim
    subst hcc
    obtain ⟨e1, e2⟩ := q.both (by omega)
    refine ⟨hnh, hu', hu'.inst e2.symm, rfl, ⟨c', hs, fun l' t' ht' => ?_⟩, hlt⟩
    by_cases hl : l' = l
    · subst hl
      rcases hw with h | h
      · rw [h] at ht'; cases ht'
        exact hu'.inst (e1.trans e2.symm)
      · rw [h] at ht'; cases ht'
    · exact hf l' t' (by rw [tget_insert_ne u hl]; exact ht')
  have none1 : (∀ v, s.known v ≠ .variant lo) → ∀ v, sm.known v ≠ .variant lo := by
    intro h v hv
    obtain ⟨v0, h0, _⟩ := m1.owns v lo hv
    exact h v0 h0
  have toM : m < sz (σ x) ∨ (sz (σ x) ≤ m ∧ Fits σ s1 lo (σ x)) ∨ (∀ v, sm.known v ≠ .variant lo) →
      SatV σ m s1 → SatV σ m sm := by
    intro hc hv v id hk hz
    by_cases e : id = lo
    · subst e
      rcases hc with hc | ⟨hc, hf⟩ | hc
      · rw [hox v hk] at hz; omega
      · obtain ⟨_, _, _, e', hf', _⟩ := back1 hc hf
        rw [hox v hk]
        obtain ⟨cc, hcc, hf''⟩ := hf'
        rw [hs] at hcc
        cases hcc
        exact ⟨c, by rw [hsm, e'], hf''⟩
      · exact (hc v hk).elim
    · have := hv v id (by rw [hk1]; exact hk) hz
      obtain ⟨cc, hcc, hf⟩ := this
      exact ⟨cc, by rw [← hst2 id e]; exact hcc, hf⟩
  refine ⟨fun v T hT h => ?_, fun v W hW h => ?_, fun R hR t' hl hz hlt => ?_, fun v w' hn hs' => ?_,
    fun v id hk => ?_, fun id hne => ?_, ?_, fun hk hf => ?_, fun hc hv => ?_, fun hv hk id hkx hid => ?_, fun hk hsat => ?_⟩
  · have := L.strong v T hT h
    rw [hk1] at this
    exact SD.strong v T hT this
  · obtain ⟨a1, a2⟩ := SD.persist v W hW h
    obtain ⟨b1, b2⟩ := L.persist v W hW (by rw [hk1]; exact a1)
    exact ⟨b1, fun w' hw' => SD.strong w' W hW (by rw [← hk1]; exact b2 w' hw')⟩
  · rw [List.append_assoc] at hR
    rcases List.mem_append.mp hR with hR | hR
    · obtain ⟨a1, a2⟩ := SD.caseB R hR t' hl hz hlt
      obtain ⟨b1, b2⟩ := L.persist R.v _ (Nat.le_of_eq hz) (by rw [hk1]; exact a1)
      exact ⟨b1, fun w' hw' => SD.strong w' _ (Nat.le_of_eq hz) (by rw [← hk1]; exact b2 w' hw')⟩
    rcases List.mem_append.mp hR with hR | hR
    · rw [List.mem_singleton] at hR
      subst hR
      cases hl
    · obtain ⟨b1, b2⟩ := L.caseB R hR t' hl hz hlt
      exact ⟨b1, fun w' hw' => SD.strong w' _ (Nat.le_of_eq hz) (by rw [← hk1]; exact b2 w' hw')⟩
  · by_cases h : sm.Same v w'
    · exact (SD.joined v w' hn h).left
    · exact (L.joined v w' (fun hh => h ((hsa1 _ _).mp hh)) hs').right
  · rcases SD.kept v id hk with h | h
    · rcases L.kept v id (by rw [hk1]; exact h) with h | h
      · exact .inl h
      · exact .inr h.right
    · exact .inr h.left
  · rcases L.stored id hne with h | ⟨v, hv, ht⟩
    · rw [h, hst2 id hne]
      rcases SD.stored id with h | ⟨v, hv, ht⟩
      · exact .inl h
      · exact .inr ⟨v, hv, ht.left⟩
    · rw [hk1] at hv
      obtain ⟨v0, h0, hs0⟩ := m1.owns v id hv
      exact .inr ⟨v0, h0, (ht.congr (ham _ _ hs0).symm).right⟩
  · rintro ⟨R, hR, hm⟩
    rw [List.append_assoc] at hR
    rcases List.mem_append.mp hR with hR | hR
    · rcases Nat.lt_or_ge (sz (σ x)) m with hlt | hge
      · exfalso
        have hh := ih ⟨x, none, [.ent l u]⟩ (by simp) (by rw [Req.meas_none rfl]; exact hlt) _ (.head _)
        have h1 : sz (u.inst σ) < sz (σ x) := HasVariant.lt hh
        have := (q.nest ⟨R, hR, hm⟩).2.2
        omega
      · exact hge
    rcases List.mem_append.mp hR with hR | hR
    · rw [List.mem_singleton] at hR
      subst hR
      exact hm
    · exact L.nest ⟨R, hR, hm⟩
  · obtain ⟨b1, b2, b3, b4⟩ := L.back hk hf
    obtain ⟨d1, d2, d3, _, d5, _⟩ := back1 hk b4
    refine ⟨fun h => (Heavy.append.mp h).elim d1 b1, fun R hR => ?_, fun e he => ?_, d5⟩
    · rw [List.append_assoc] at hR
      rcases List.mem_append.mp hR with hR | hR
      · exact .inl (by simp [hR])
      rcases List.mem_append.mp hR with hR | hR
      · rw [List.mem_singleton] at hR
        subst hR
        refine .inr fun d hd => ?_
        rw [List.mem_singleton] at hd
        subst hd
        exact d2
      · rcases b2 R hR with h | h
        · exact .inl (by simp [h])
        · exact .inr h
    · rcases List.mem_cons.mp he with rfl | he
      · exact d3
      · exact b3 e he
  · have hc1 : m < sz (σ x) ∨ (sz (σ x) ≤ m ∧ Fits σ s1 lo (σ x)) ∨ (∀ v, sm.known v ≠ .variant lo) := by
      rcases hc with h | ⟨h, hf⟩ | h
      · exact .inl h
      · exact .inr (.inl ⟨h, (L.back h hf).2.2.2⟩)
      · exact .inr (.inr (none1 h))
    have hc2 : m < sz (σ x) ∨ (sz (σ x) ≤ m ∧ Fits σ s' lo (σ x)) ∨ (∀ v, s1.known v ≠ .variant lo) := by
      rcases hc with h | h | h
      · exact .inl h
      · exact .inr (.inl h)
      · exact .inr (.inr fun v => by rw [hk1]; exact none1 h v)
    obtain ⟨v1, k1⟩ := L.satV hc2 hv
    have vm := toM hc1 v1
    refine ⟨SD.satV vm, fun v id hk hz => ?_⟩
    rcases SD.keepV vm v id hk hz with h | h
    · exact k1 v id (by rw [hk1]; exact h) hz
    · exact .inr (m2.gone id (mi.gone id h))
  · by_cases hsk : sm.known x = .variant id
    · exact L.keepX hv hk id (by rw [hk1]; exact hsk) hid
    · exfalso
      have hno : ∀ v, sm.known v ≠ .variant lo := by
        intro v hv'
        obtain ⟨v0, h0, h1⟩ := m1.owns v lo hv'
        have h2 := hlo v0 h0
        have h3 : sm.Same v x := h1.symm.trans (m1.same _ _ h2)
        rw [known_congr h2, hkx] at h0
        rw [known_congr h3] at hv'
        rw [h0] at hsk
        exact hsk hv'
      have v1 := (L.satV (.inr (.inr fun v => by rw [hk1]; exact hno v)) hv).1
      rcases SD.keepV (toM (.inr (.inr hno)) v1) x id hkx hk with h | h
      · exact hsk h
      · exact hid (m2.gone id (mi.gone id h))
  · obtain ⟨h1, h2⟩ := L.caseA hk hsat
    have hm : Sat σ m sm := by
      intro v hz
      have := h1 v hz
      rw [hk1] at this
      cases hkv : sm.known v with
      | indefinite => trivial
      | invariant cc => rw [hkv] at this; exact this
      | variant id =>
        rw [hkv] at this
        by_cases e : id = lo
        · subst e
          rw [hox v hkv] at hz
          omega
        · obtain ⟨cc, hcc, hf⟩ := this
          exact ⟨cc, by rw [← hst2 id e]; exact hcc, hf⟩
    refine ⟨SD.sat_back m1 hm, fun R hR hme hz => ?_⟩
    rw [List.append_assoc] at hR
    rcases List.mem_append.mp hR with hR | hR
    · exact SD.caseA hm R hR hme hz
    rcases List.mem_append.mp hR with hR | hR
    · rw [List.mem_singleton] at hR
      subst hR
      have : sz (σ x) = m := hz
      omega
    · exact h2 R hR hme hz

/-- **the loop over the entries** -/
theorem mergeEntries_sound {utype : UType → UType → TcM UType}
    (hU : ∀ {t1 t2 t0 : UType} {s s' : Checker}, Good s → t1.Firm → t2.Firm → utype t1 t2 s = .ok (t0, s') →
      t0.Firm ∧ Claim s s' (UQ t1 t2 t0)) {x lo : Nat} :
    ∀ (es : VarMap) {s s' : Checker} {a : Unit}, Good s → (∀ e ∈ es, e.2.Firm) →
      (∀ v, s.known v = .variant lo → s.Same v x) →
      mergeEntries utype x lo es s = .ok (a, s') → LoopC x lo s s' es
  | [], s, s', a, hg, _, _, h => by
    obtain ⟨_, rfl⟩ := TcM.pure_eq_ok.mp h
    exact .nil hg
  | (l, t) :: es, s, s', a, hg, hf, hlo, h => by
    unfold mergeEntries at h
    rw [TcM.bind_eq_ok] at h
    obtain ⟨c, s1, h1, h⟩ := h
    obtain ⟨h1', rfl⟩ := getVarmap_eq_ok.mp h1
    have ht : t.Firm := hf _ (.head _)
    have hlo' : ∀ {sm : Checker}, Mono s sm → ∀ v, sm.known v = .variant lo → sm.Same v x := by
      intro sm hm v hv
      obtain ⟨v0, h0, h1⟩ := hm.owns v lo hv
      exact h1.symm.trans (hm.same _ _ (hlo v0 h0))
    have tail : ∀ {sm : Checker} {c' : VarMap} {u : UType} {w : UType}, Claim s sm (UQ w t u) → u.Firm →
        TMap.get l c = some w ∨ TMap.get l c = none → sm.store lo = some c' →
        mergeEntries utype x lo es (wrote sm lo (TMap.insert l u c') ⟨x, none, [.ent l u]⟩) = .ok (a, s') →
        LoopC x lo s s' ((l, t) :: es) := by
      intro sm c' u w hD hu hw hsm h
      refine loop_step hlo hD hu h1' hw hsm ?_
      refine mergeEntries_sound hU es ?_ (fun e he => hf e (.tail _ he)) (fun v hv => hlo' hD.1 v hv) h
      refine ⟨hD.1.good.wf, hD.1.good.len, hD.1.good.con, fun id mm h l' t' hl' => ?_, hD.1.good.own, hD.1.good.fresh⟩
      by_cases e : id = lo
      · subst e
        simp only [wrote, if_true, Option.some.injEq] at h
        subst h
        rcases mem_tinsert hl' with ⟨_, rfl⟩ | h
        · exact hu
        · exact hD.1.good.var _ _ hsm _ _ h
      · simp only [wrote, if_neg e] at h
        exact hD.1.good.var _ _ h _ _ hl'
    cases hget : TMap.get l c with
    | none =>
      rw [hget] at h
      dsimp only at h
      rw [TcM.bind_eq_ok] at h
      obtain ⟨_, s2, h2, h⟩ := h
      have h2 := setVarmap_eq_ok.mp h2
      subst h2
      rw [TcM.bind_eq_ok] at h
      obtain ⟨_, s3, h3, h⟩ := h
      have h3 := note_eq_ok.mp h3
      subst h3
      refine tail (w := t) (Claim.refl hg fun σ m => ⟨fun _ => ⟨rfl, rfl⟩, fun _ => ⟨rfl, rfl⟩, fun _ => ⟨rfl, rfl⟩,
        fun h => (not_heavy_nil h).elim⟩) ht (.inr hget) h1' h
    | some tlo =>
      rw [hget] at h
      dsimp only at h
      rw [TcM.bind_eq_ok] at h
      obtain ⟨u, sm, hu, h⟩ := h
      obtain ⟨hfu, hcl⟩ := hU hg (hg.var _ _ h1' _ _ (tget_mem hget)) ht hu
      rw [TcM.bind_eq_ok] at h
      obtain ⟨c', s2, h2, h⟩ := h
      obtain ⟨h2', rfl⟩ := getVarmap_eq_ok.mp h2
      rw [TcM.bind_eq_ok] at h
      obtain ⟨_, s3, h3, h⟩ := h
      have h3 := setVarmap_eq_ok.mp h3
      subst h3
      rw [TcM.bind_eq_ok] at h
      obtain ⟨_, s4, h4, h⟩ := h
      have h4 := note_eq_ok.mp h4
      subst h4
      exact tail hcl hfu (.inl hget) h2' h

end Tc
end Doodle
