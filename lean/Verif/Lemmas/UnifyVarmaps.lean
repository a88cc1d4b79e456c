import Verif.Lemmas.UnifyMerge

/-! Merging the variants of two unions. -/

namespace Doodle
namespace Tc

/-- **two classes of unions are joined** -/
theorem varmaps_sound {o : Orders} (ho : o.Lists) {utype : UType → UType → TcM UType}
    (hU : ∀ {t1 t2 t0 : UType} {s s' : Checker}, Good s → t1.Firm → t2.Firm → utype t1 t2 s = .ok (t0, s') →
      t0.Firm ∧ Claim s s' (UQ t1 t2 t0))
    {st s0 s2 : Checker} {x y id1 id2 : Nat} {pre : List Req} {a : Unit}
    (hg : Good st) (hg0 : Good s0) (hx0 : rt s0 x = x) (hy0 : rt s0 y = x) (hxy : x < y)
    (hk1 : st.known x = .variant id1) (hk2 : st.known y = .variant id2) (hne : id1 ≠ id2)
    (hk0 : s0.known x = .variant id1)
    (he : Enter st s0 x (fun c => c = .variant id1 ∨ c = .variant id2) pre)
    (hpre : ∃ R ∈ pre, R.light = none ∧ s0.Same R.v x)
    (h : unifyVarmaps o utype x id1 y id2 s0 = .ok (a, s2)) :
    (∀ v w, s0.Same v w → s2.Same v w) ∧ Claim st s2 fun σ m new => Heavy σ m new → m ≤ sz (σ x) := by
  -- the run
  unfold unifyVarmaps at h
  rw [if_neg hne] at h
  generalize hlo : min id1 id2 = lo at h
  generalize hhi : max id1 id2 = hi at h
  have hids : (id1 = lo ∧ id2 = hi) ∨ (id1 = hi ∧ id2 = lo) := by omega
  have hlohi : lo ≠ hi := by omega
  rw [TcM.bind_eq_ok] at h
  obtain ⟨c, s0', h1, h⟩ := h
  obtain ⟨hc, rfl⟩ := getVarmap_eq_ok.mp h1
  rw [TcM.bind_eq_ok] at h
  obtain ⟨_, sA, h2, h⟩ := h
  have hA := setVarmap_eq_ok.mp h2
  rw [TcM.bind_eq_ok] at h
  obtain ⟨_, sB, h3, h⟩ := h
  rw [TcM.bind_eq_ok] at h
  obtain ⟨ch, sB', h4, h⟩ := h
  obtain ⟨hch, rfl⟩ := getVarmap_eq_ok.mp h4
  rw [TcM.bind_eq_ok] at h
  obtain ⟨_, sC, h5, h⟩ := h
  have hC := setVarmap_eq_ok.mp h5
  rw [TcM.bind_eq_ok] at h
  obtain ⟨_, sD, h6, h7⟩ := h
  have hrep : ∀ {i id : Nat} {s s' : Checker} {a : Unit}, repointVmid i id s = .ok (a, s') →
      ∃ idb, s.constraints[i]? = some (.variant idb) ∧
        s' = { s with constraints := s.constraints.set i (.variant id) } := by
    intro i id s s' a hr
    unfold repointVmid at hr
    rw [TcM.bind_eq_ok] at hr
    obtain ⟨cs, s1, hr1, hr⟩ := hr
    obtain ⟨hr1', rfl⟩ := getConstraints_eq_ok.mp hr1
    cases cs with
    | variant idb => exact ⟨idb, hr1', (setConstraints_eq_ok.mp hr).2⟩
    | indefinite => exact (TcM.panic_ne.mp hr).elim
    | invariant c => exact (TcM.panic_ne.mp hr).elim
  obtain ⟨idb, hbx, hD⟩ := hrep h6
  obtain ⟨idy, hby, hE⟩ := hrep h7
  clear h1 h2 h4 h5 h6 h7
  have hknA : ∀ v, sA.known v = s0.known v := fun v => by subst hA; rfl
  have hsaA : ∀ v w, sA.Same v w ↔ s0.Same v w := fun v w => by subst hA; exact Iff.rfl
  have hstA : sA.store hi = some [] := by subst hA; simp
  have hstA' : ∀ id, id ≠ hi → sA.store id = s0.store id := fun id h => by subst hA; simp [h]
  have hbx' : sB.constraints[x]? = some (.variant idb) := by subst hC; exact hbx
  -- who owns the two maps
  have hyx : s0.Same y x := hy0.trans hx0.symm
  have own0 : ∀ v id, id = id1 ∨ id = id2 → s0.known v = .variant id → s0.Same v x := by
    intro v id hid hv
    by_cases hx : s0.Same v x
    · exact hx
    · rw [← he.out v hx] at hv
      rcases hid with rfl | rfl
      · exact he.same _ _ (hg.own _ _ _ hv hk1)
      · exact (he.same _ _ (hg.own _ _ _ hv hk2)).trans hyx
  have hloid : lo = id1 ∨ lo = id2 := by omega
  have hhiid : hi = id1 ∨ hi = id2 := by omega
  have hgA : Good sA := by
    subst hA
    refine ⟨hg0.wf, hg0.len, hg0.con, fun id mm h l' t' hl' => ?_, hg0.own, hg0.fresh⟩
    by_cases e : id = hi
    · subst e
      simp only [if_true, Option.some.injEq] at h
      subst h
      cases hl'
    · simp only [if_neg e] at h
      exact hg0.var _ _ h _ _ hl'
  have hesm : ∀ e, e ∈ o.entries c ↔ e ∈ c := fun e => (ho.entries c).mem_iff
  obtain ⟨mL, hLnil, hLlo, inner, new, eL, hsub, hmem, _, clL⟩ := mergeEntries_sound hU (o.entries c) hgA
    (fun e hm => hg0.var _ _ hc e.1 e.2 ((hesm e).mp hm))
    (fun v hv => (hsaA v x).mpr (own0 v lo hloid (by rw [← hknA]; exact hv))) h3
  -- the final state
  have hal : s2.aliases = sB.aliases := by subst hE; subst hD; subst hC; rfl
  have hlen2 : s2.constraints.length = sB.constraints.length := by
    subst hE; subst hD; subst hC; simp
  have hnx2 : s2.nextId = sB.nextId := by subst hE; subst hD; subst hC; rfl
  have hh2 : s2.history = sB.history := by subst hE; subst hD; subst hC; rfl
  have hst2 : s2.store hi = none := by subst hE; subst hD; subst hC; simp
  have hst2' : ∀ id, id ≠ hi → s2.store id = sB.store id := fun id h => by
    subst hE; subst hD; subst hC; simp [h]
  have hcon2 : ∀ i : Nat, s2.constraints[i]? = if i = y then (if y < sB.constraints.length then some (.variant lo) else none)
      else if i = x then some (.variant lo) else sB.constraints[i]? := by
    intro i
    have hxl : x < sB.constraints.length := (List.getElem?_eq_some_iff.mp hbx').1
    subst hE; subst hD; subst hC
    dsimp only
    rw [List.getElem?_set, List.getElem?_set]
    by_cases h1 : i = y
    · subst h1; simp
    · rw [if_neg (fun h => h1 h.symm), if_neg h1]
      by_cases h2 : i = x
      · subst h2; simp [hxl]
      · rw [if_neg (fun h => h2 h.symm), if_neg h2]
  have hsame : ∀ {v w}, s2.Same v w ↔ sB.Same v w := by
    intro v w; unfold Checker.Same; rw [hal]
  have hrt : ∀ v, rt s2 v = rt sB v := fun v => by unfold rt; rw [hal]
  have h0B : ∀ v w, s0.Same v w → sB.Same v w := fun v w h => mL.same v w ((hsaA v w).mpr h)
  have hyn : rt sB y ≠ y := by
    intro h
    have h' : rt sB y = rt sB x := h0B _ _ hyx
    have := Aliases.root_le mL.good.wf x
    have : rt sB x ≤ x := this
    omega
  have hkx : ∀ v, rt sB v = x → s2.known v = .variant lo := fun v hv => known_of_get (by
    rw [hrt, hv, hcon2, if_neg (by omega), if_pos rfl])
  have hkn : ∀ v, rt sB v ≠ x → s2.known v = sB.known v := fun v hv =>
    known_eq_of (by
      rw [hrt, hcon2, if_neg (fun h => hyn (by rw [← h]; exact rt_rt mL.good v)), if_neg hv])
  have hkb : ∀ v, rt sB v = x → sB.known v = .variant idb := fun v hv => known_of_get (by rw [hv]; exact hbx')
  have rtx : ∀ v, rt sB v = x → sB.Same v x := by
    intro v hv
    show rt sB v = rt sB x
    have := rt_rt mL.good v
    rw [hv] at this
    rw [hv, this]
  have ownB : ∀ v id, id = id1 ∨ id = id2 → sB.known v = .variant id → sB.Same v x := by
    intro v id hid hv
    obtain ⟨v0, h0, hs0⟩ := mL.owns v id hv
    rw [hknA] at h0
    exact hs0.symm.trans (h0B _ _ (own0 v0 id hid h0))
  have lo2 : ∀ v, s2.known v = .variant lo → sB.Same v x := by
    intro v hv
    by_cases h : rt sB v = x
    · exact rtx v h
    · rw [hkn v h] at hv
      exact ownB v lo hloid hv
  have hw : ∀ id, id = id1 ∨ id = id2 → ∃ v, st.known v = .variant id ∧ s0.Same v x := by
    rintro id (rfl | rfl)
    · exact ⟨x, hk1, rfl⟩
    · exact ⟨y, hk2, hyx⟩
  have hfr1 : ∀ id, id = id1 ∨ id = id2 → id < st.nextId := by
    rintro id (rfl | rfl)
    · exact hg.fresh _ _ (known_get hk1 (fun h => nomatch h))
    · exact hg.fresh _ _ (known_get hk2 (fun h => nomatch h))
  have hnxB : sB.nextId = st.nextId := by rw [mL.next, ← he.next]; subst hA; rfl
  have hinv : ∀ v, (∀ id, s0.known v ≠ .variant id) → ¬ s0.Same v x := by
    intro v hv hx
    exact hv id1 (by rw [known_congr hx, hk0])
  have hinvst : ∀ v, (∀ id, st.known v ≠ .variant id) → ¬ s0.Same v x := by
    intro v hv hx
    rcases he.inn v hx with h | h
    · exact hv _ h
    · exact hv _ h
  have hg2 : Good s2 := by
    refine ⟨by rw [hal]; exact mL.good.wf, by rw [hlen2, hal]; exact mL.good.len, fun i c hi => ?_,
      fun id mm h => ?_, fun v w id hv hw => ?_, fun i id hi => ?_⟩
    · rw [hcon2] at hi
      split at hi
      · split at hi <;> cases hi
      · split at hi
        · cases hi
        · exact mL.good.con i c hi
    · by_cases e : id = hi
      · subst e; rw [hst2] at h; cases h
      · rw [hst2' id e] at h; exact mL.good.var _ _ h
    · rw [hsame]
      by_cases e : id = lo
      · subst e
        exact (lo2 v hv).trans (lo2 w hw).symm
      · have hv' : rt sB v ≠ x := fun h => by rw [hkx v h] at hv; cases hv; exact e rfl
        have hw' : rt sB w ≠ x := fun h => by rw [hkx w h] at hw; cases hw; exact e rfl
        rw [hkn v hv'] at hv
        rw [hkn w hw'] at hw
        exact mL.good.own v w id hv hw
    · rw [hnx2]
      rw [hcon2] at hi
      split at hi
      · split at hi
        · cases hi; rw [hnxB]; exact hfr1 _ hloid
        · cases hi
      · split at hi
        · cases hi; rw [hnxB]; exact hfr1 _ hloid
        · exact mL.good.fresh i id hi
  refine ⟨fun v w h => hsame.mpr (h0B v w h), ⟨hg2, fun v w h => hsame.mpr (h0B v w (he.same v w h)), ?_, by rw [hnx2, hnxB], fun v' id hk => ?_,
    fun id h => ?_, fun v c hk => ?_⟩, pre ++ new, ?_, fun σ m ha ih => ?_⟩
  · rw [hlen2, mL.len, ← he.len]; subst hA; rfl
  · by_cases e : id = id1 ∨ id = id2
    · obtain ⟨v, hv, hvx⟩ := hw id e
      refine ⟨v, hv, hsame.mpr ((h0B _ _ hvx).trans ?_)⟩
      by_cases h : rt sB v' = x
      · exact (rtx v' h).symm
      · rw [hkn v' h] at hk
        exact (ownB v' id e hk).symm
    · have hv' : rt sB v' ≠ x := fun h => by rw [hkx v' h] at hk; cases hk; exact e hloid
      rw [hkn v' hv'] at hk
      obtain ⟨v0, h0, hs0⟩ := mL.owns v' id hk
      rw [hknA] at h0
      have hnx : ¬ s0.Same v0 x := fun h => by rw [known_congr h, hk0] at h0; cases h0; exact e (.inl rfl)
      exact ⟨v0, (he.out v0 hnx).trans h0, hsame.mpr hs0⟩
  · by_cases e : id = hi
    · subst e; exact hst2
    · rw [hst2' id e]
      exact mL.gone id (by rw [hstA' id e, he.store]; exact h)
  · have hnx : ¬ s0.Same v x := hinvst v (fun id h => by rw [hk] at h; cases h)
    rw [he.out v hnx] at hk
    obtain ⟨c', hc'⟩ := mL.kind v c (by rw [hknA]; exact hk)
    have hv' : rt sB v ≠ x := fun h => by rw [hkb v h] at hc'; cases hc'
    exact ⟨c', by rw [hkn v hv']; exact hc'⟩
  · rw [hh2, eL]
    have : sA.history = s0.history := by subst hA; rfl
    rw [this, he.hist, List.append_assoc]
  -- one solution
  have haB : AliasOk σ sB := fun v w h => ha v w (hsame.mpr h)
  have haA : AliasOk σ sA := haB.back mL
  have ha0 : AliasOk σ s0 := fun v w h => haA v w ((hsaA v w).mpr h)
  have L := clL σ m haB fun R hR => ih R (by simp [hR])
  obtain ⟨Rp, hRp, hRpl, hRpx⟩ := hpre
  have touchx : ∀ v, s0.Same v x → Touch σ (pre ++ new) v := fun v hv =>
    ⟨Rp, by simp [hRp], hRpl, ha0 _ _ (hRpx.trans hv.symm)⟩
  have touchI : ∀ {v}, Touch σ inner v → Touch σ (pre ++ new) v := by
    rintro v ⟨R, hR, h⟩
    exact ⟨R, by simp [hsub R hR], h⟩
  have touchHeavy : ∀ {n}, Touch σ n x → Heavy σ (sz (σ x)) n := by
    rintro n ⟨R, hR, hl, he⟩
    exact ⟨R, hR, by rw [Req.meas_none hl, he]; exact Nat.le_refl _⟩
  have chg : rt sB x ≠ x → Touch σ inner x := by
    intro hne
    have hy : sB.Same (rt sB x) x := same_rt mL.good x
    have hn : ¬ sA.Same (rt sB x) x := by
      intro h
      have h' : rt s0 (rt sB x) = rt s0 x := (hsaA _ _).mp h
      have l1 := Aliases.root_le hg0.wf (rt sB x)
      have l2 : rt sB x ≤ x := Aliases.root_le mL.good.wf x
      have : Aliases.root s0.aliases (rt sB x) = x := h'.trans hx0
      rw [this] at l1
      omega
    exact (L.joined _ _ hn hy).congr (haB _ _ hy)
  -- the variants fit in the end
  have fits : sz (σ x) ≤ m → SatV σ m s2 → Fits σ sB lo (σ x) := by
    intro hk hv
    by_cases hr : rt sB x = x
    · obtain ⟨mm, h1, h2⟩ := hv x lo (hkx x hr) hk
      exact ⟨mm, by rw [← hst2' lo hlohi]; exact h1, h2⟩
    · have hall : ∀ v, s2.known v = sB.known v := fun v => hkn v fun h => hr (by
        have := rt_rt mL.good v
        rwa [h] at this)
      have hvB : SatV σ m sB := by
        intro v id hkv hz
        obtain ⟨mm, h1, h2⟩ := hv v id (by rw [hall]; exact hkv) hz
        by_cases e : id = hi
        · subst e; rw [hst2] at h1; cases h1
        · exact ⟨mm, by rw [← hst2' id e]; exact h1, h2⟩
      have hnn : sB.store id1 ≠ none := by
        rcases hids with ⟨e, _⟩ | ⟨e, _⟩
        · rw [e]
          refine hLlo fun hnil => hr ?_
          have h1 := hLnil hnil
          have h2 : rt sA x = x := by subst hA; exact hx0
          rw [h1]; exact h2
        · rw [e, hch]; intro h; cases h
      have hkB := L.keepX hvB hk id1 (by rw [hknA]; exact hk0) hnn
      obtain ⟨mm, h1, h2⟩ := hv x id1 (by rw [hall]; exact hkB) hk
      rcases hids with ⟨e, _⟩ | ⟨e, _⟩
      · rw [e] at h1
        exact ⟨mm, by rw [← hst2' lo hlohi]; exact h1, h2⟩
      · rw [e, hst2] at h1; cases h1
  -- nothing was done to the class on the way, when it is small
  have quiet : sz (σ x) ≤ m → SatV σ m s2 → Fits σ sB lo (σ x) ∧ ¬ Touch σ inner x ∧ rt sB x = x ∧
      sB.known x = .variant id1 := by
    intro hk hv
    have hf := fits hk hv
    obtain ⟨b1, _⟩ := L.back hk hf
    have hnt : ¬ Touch σ inner x := fun h => b1 (touchHeavy h)
    refine ⟨hf, hnt, Decidable.byContradiction fun h => hnt (chg h), ?_⟩
    rcases L.kept x id1 (by rw [hknA]; exact hk0) with h | h
    · exact h
    · exact (hnt h).elim
  have satB : SatV σ m s2 → SatV σ m sB := by
    intro hv v id hkv hz
    by_cases hvx : sB.Same v x
    · rw [haB _ _ hvx] at hz ⊢
      obtain ⟨hf, hnt, _, hkB⟩ := quiet hz hv
      rw [known_congr hvx, hkB] at hkv
      cases hkv
      rcases hids with ⟨e, _⟩ | ⟨e, _⟩
      · rw [e]; exact hf
      · refine ⟨[], ?_, fun l t h => nomatch h⟩
        rw [e]
        rcases L.stored hi hlohi.symm with h | ⟨v', hv', ht⟩
        · rw [h]; exact hstA
        · rw [hknA] at hv'
          exact (hnt (ht.congr (ha0 _ _ (own0 v' hi hhiid hv')))).elim
    · have hr : rt sB v ≠ x := fun h => hvx (rtx v h)
      obtain ⟨mm, h1, h2⟩ := hv v id (by rw [hkn v hr]; exact hkv) hz
      by_cases e : id = hi
      · subst e; rw [hst2] at h1; cases h1
      · exact ⟨mm, by rw [← hst2' id e]; exact h1, h2⟩
  have cond : SatV σ m s2 → m < sz (σ x) ∨ (sz (σ x) ≤ m ∧ Fits σ sB lo (σ x)) ∨ (∀ v, sA.known v ≠ .variant lo) := by
    intro hv
    rcases Nat.lt_or_ge m (sz (σ x)) with h | h
    · exact .inl h
    · exact .inr (.inl ⟨h, (quiet h hv).1⟩)
  have hnew : ∀ {v w}, ¬ s0.Same v w → sB.Same v w → Touch σ inner v := fun hn hs =>
    L.joined _ _ (fun h => hn ((hsaA _ _).mp h)) hs
  have hvnot : ∀ v id, st.known v = .variant id → ¬ s0.Same v x → s0.known v = .variant id ∧ id ≠ lo ∧ id ≠ hi := by
    intro v id hv hx
    rw [he.out v hx] at hv
    refine ⟨hv, fun e => ?_, fun e => ?_⟩
    · subst e; exact hx (own0 v _ hloid hv)
    · subst e; exact hx (own0 v _ hhiid hv)
  refine ⟨⟨fun v T hT h => ?_, fun v W hW h => ?_, fun hs v id hk hv => ?_, fun hs R hR hm hz => ?_,
    fun R hR t hl hz hlt => ?_, fun v w hn hs => ?_, fun id => ?_, fun v id hk => ?_, fun hs v id hk hz => ?_⟩,
    fun hh => ?_⟩
  · have hr : rt sB v ≠ x := fun hr => by rw [hkx v hr] at h; exact h.elim
    rw [hkn v hr] at h
    have h' := L.strong v T hT h
    rw [hknA] at h'
    have hx : ¬ s0.Same v x := hinv v fun id hid => by rw [hid] at h'; exact h'.elim
    rw [he.out v hx]; exact h'
  · have hx : ¬ s0.Same v x := hinvst v fun id hid => by rw [hid] at h; exact h.elim
    rw [he.out v hx, ← hknA] at h
    obtain ⟨a1, a2⟩ := L.persist v W hW h
    have hr : rt sB v ≠ x := fun hr => by rw [hkb v hr] at a1; exact a1.elim
    refine ⟨by rw [hkn v hr]; exact a1, fun w hw => ?_⟩
    have h' := a2 w (hsame.mp hw)
    rw [hknA] at h'
    have hx : ¬ s0.Same w x := hinv w fun id hid => by rw [hid] at h'; exact h'.elim
    rw [he.out w hx]; exact h'
  · obtain ⟨vA, _⟩ := L.satV (cond hs) (satB hs)
    by_cases hx : s0.Same v x
    · have hσ : σ v = σ x := ha0 _ _ hx
      rw [hσ] at hv ⊢
      obtain ⟨hf, _⟩ := quiet hv hs
      obtain ⟨_, _, hes, hfA⟩ := L.back hv hf
      have hid : id = lo ∨ id = hi := by
        rcases he.inn v hx with h | h <;> rw [h] at hk <;> cases hk <;> omega
      rcases hid with e | e
      · rw [e, ← he.store]
        obtain ⟨mm, h1, h2⟩ := hfA
        exact ⟨mm, by rw [← hstA' lo hlohi]; exact h1, h2⟩
      · rw [e, ← he.store]
        exact ⟨c, hc, fun l t hlt => hes (l, t) ((hesm _).mpr (tget_mem hlt))⟩
    · obtain ⟨h0, _, h2⟩ := hvnot v id hk hx
      obtain ⟨mm, h3, h4⟩ := vA v id (by rw [hknA]; exact h0) hv
      exact ⟨mm, by rw [← he.store, ← hstA' id h2]; exact h3, h4⟩
  · rcases List.mem_append.mp hR with hR | hR
    · intro d hd
      rw [(he.preOk R hR).2.1] at hd
      cases hd
    rcases Nat.lt_or_ge m (sz (σ x)) with hk | hk
    · have hsB : Sat σ m sB := by
        intro v hv
        cases hkv : sB.known v with
        | indefinite => trivial
        | variant id => exact satB hs.satV v id hkv hv
        | invariant cc =>
          have := hs v hv
          rw [hkn v (fun h => by rw [hkb v h] at hkv; cases hkv), hkv] at this
          exact this
      exact (L.caseA hk hsB).2 R hR hm hz
    · obtain ⟨hf, _⟩ := quiet hk hs.satV
      obtain ⟨b1, b2, _⟩ := L.back hk hf
      rcases b2 R hR with h | h
      · exact (b1 ⟨R, h, by rw [hm]; exact hk⟩).elim
      · exact h
  · rcases List.mem_append.mp hR with hR | hR
    · rw [(he.preOk R hR).1] at hl; cases hl
    · obtain ⟨a1, a2⟩ := L.caseB R hR t hl hz hlt
      have hr : rt sB R.v ≠ x := fun hr => by rw [hkb _ hr] at a1; exact a1.elim
      refine ⟨by rw [hkn _ hr]; exact a1, fun w hw => ?_⟩
      have h' := a2 w (hsame.mp hw)
      rw [hknA] at h'
      have hx : ¬ s0.Same w x := hinv w fun id hid => by rw [hid] at h'; exact h'.elim
      rw [he.out w hx]; exact h'
  · by_cases h : s0.Same v w
    · obtain ⟨hvx, _⟩ := he.joined v w hn h
      exact touchx v hvx
    · exact touchI (hnew h (hsame.mp hs))
  · by_cases e : id = id1 ∨ id = id2
    · obtain ⟨v, hv, hvx⟩ := hw id e
      exact .inr ⟨v, hv, touchx v hvx⟩
    · have e1 : id ≠ lo := by omega
      have e2 : id ≠ hi := by omega
      rw [hst2' id e2]
      rcases L.stored id e1 with h | ⟨v, hv, ht⟩
      · exact .inl (by rw [h, hstA' id e2, he.store])
      · rw [hknA] at hv
        have hx : ¬ s0.Same v x := fun hx => by rw [known_congr hx, hk0] at hv; cases hv; exact e (.inl rfl)
        exact .inr ⟨v, (he.out v hx).trans hv, touchI ht⟩
  · by_cases hx : s0.Same v x
    · exact .inr (touchx v hx)
    · obtain ⟨h0, _, _⟩ := hvnot v id hk hx
      by_cases hr : rt sB v = x
      · exact .inr (touchI (hnew hx (rtx v hr)))
      · rw [hkn v hr]
        rcases L.kept v id (by rw [hknA]; exact h0) with h | h
        · exact .inl h
        · exact .inr (touchI h)
  · obtain ⟨_, kB⟩ := L.satV (cond hs) (satB hs)
    by_cases hx : s0.Same v x
    · have hσ : σ v = σ x := ha0 _ _ hx
      rw [hσ] at hz
      obtain ⟨_, _, hr, _⟩ := quiet hz hs
      have hid : id = lo ∨ id = hi := by
        rcases he.inn v hx with h | h <;> rw [h] at hk <;> cases hk <;> omega
      rcases hid with e | e
      · left
        rw [e]
        exact hkx v ((h0B _ _ hx).trans hr)
      · right
        rw [e]; exact hst2
    · obtain ⟨h0, _, h2⟩ := hvnot v id hk hx
      rcases kB v id (by rw [hknA]; exact h0) hz with h | h
      · by_cases hr : rt sB v = x
        · exfalso
          have hvx := rtx v hr
          have ht := (hnew hx hvx).congr (haB _ _ hvx)
          rw [haB _ _ hvx] at hz
          exact (quiet hz hs).2.1 ht
        · exact .inl (by rw [hkn v hr]; exact h)
      · exact .inr (by rw [hst2' id h2]; exact h)
  · rcases Heavy.append.mp hh with ⟨R, hR, hm⟩ | hh
    · obtain ⟨hl, _, hRx⟩ := he.preOk R hR
      rw [Req.meas_none hl, ha0 _ _ hRx] at hm
      exact hm
    · exact L.nest hh

end Tc
end Doodle
