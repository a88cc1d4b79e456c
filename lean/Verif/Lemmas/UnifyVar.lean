import Verif.Lemmas.UnifyVarmaps

/-! Requests about variables: a constraint for one variable, and the equality of two. -/

namespace Doodle
namespace Tc

theorem Claim.weakenI {st st' : Checker} {Q Q' : Assignment → Nat → List Req → Prop} (h : Claim st st' Q)
    (hQ : ∀ σ m n, AliasOk σ st' → (∀ R ∈ n, R.meas σ < m → R.Hold σ) → Q σ m n → Q' σ m n) : Claim st st' Q' := by
  obtain ⟨m1, n1, e1, c1⟩ := h
  refine ⟨m1, n1, e1, fun σ m ha ih => ?_⟩
  obtain ⟨s1, q1⟩ := c1 σ m ha ih
  exact ⟨s1, hQ σ m n1 ha ih q1⟩

/-- what a request for a constraint means -/
structure VQ (v : Nat) (c : UConstraint) (σ : Assignment) (m : Nat) (new : List Req) : Prop where
  hold : sz (σ v) < m ∨ (∃ t, c = .equiv t ∧ sz (t.inst σ) < m) → c.Holds σ (σ v)
  nest : Heavy σ m new → m ≤ sz (σ v) ∧ ∀ t, c = .equiv t → m ≤ sz (t.inst σ)

/-- what a request for equality means -/
def PQ (v1 v2 : Nat) (σ : Assignment) (m : Nat) (new : List Req) : Prop :=
  σ v1 = σ v2 ∧ (Heavy σ m new → m ≤ sz (σ v1))

theorem light_eq {c : UConstraint} {t : UType} : c.light = some t ↔ c = .equiv t := by
  cases c <;> simp [UConstraint.light]

theorem vq_of {v : Nat} {c : UConstraint} {σ : Assignment} {m : Nat} {new : List Req} {conds : List Cond}
    (hR : (⟨v, c.light, conds⟩ : Req) ∈ new) (hc : .con c ∈ conds)
    (ih : ∀ R ∈ new, R.meas σ < m → R.Hold σ)
    (hn : Heavy σ m new → m ≤ sz (σ v) ∧ ∀ t, c.light = some t → m ≤ sz (t.inst σ)) : VQ v c σ m new := by
  refine ⟨fun h => ih _ hR ?_ _ hc, fun hh => ⟨(hn hh).1, fun t ht => (hn hh).2 t (light_eq.mpr ht)⟩⟩
  cases hl : c.light with
  | none =>
    rw [Req.meas_none rfl]
    rcases h with h | ⟨t, h, _⟩
    · exact h
    · rw [light_eq.mpr h] at hl; cases hl
  | some t =>
    rw [Req.meas_some rfl]
    rcases h with h | ⟨t', h, h'⟩
    · exact Nat.lt_of_le_of_lt (Nat.min_le_left _ _) h
    · rw [light_eq.mpr h] at hl
      cases hl
      exact Nat.lt_of_le_of_lt (Nat.min_le_right _ _) h'

theorem known_root {s : Checker} (hg : Good s) {v : Nat} {c : UConstraints} (h : s.constraints[rt s v]? = some c) :
    ∀ w, s.Same w (rt s v) → s.known w = c := by
  intro w hw
  rw [known_congr (hw.trans (same_rt hg v))]
  exact known_of_get h

/-- a constraint of a class is replaced by one that is not a union -/
theorem good_set {s : Checker} (hg : Good s) {can : Nat} {c : UConstraint} (hc : c.Ok)
    {cs : List UConstraints} (hcs : cs = s.constraints.set can (.invariant c)) (h : List Req) :
    Good { s with constraints := cs, history := h } := by
  subst hcs
  have hk : ∀ (v id : Nat), Checker.known { s with constraints := s.constraints.set can (.invariant c), history := h } v = .variant id →
      s.known v = .variant id := by
    intro v id hv
    have h1 := known_get hv (fun h => nomatch h)
    have h2 : (s.constraints.set can (.invariant c))[rt s v]? = some (.variant id) := h1
    rw [List.getElem?_set] at h2
    split at h2
    · split at h2 <;> cases h2
    · exact known_of_get h2
  refine ⟨hg.wf, by simp [hg.len], fun i c' hi => ?_, hg.var, fun v w id hv hw => hg.own v w id (hk v id hv) (hk w id hw),
    fun i id hi => ?_⟩
  · have hi' : (s.constraints.set can (.invariant c))[i]? = some (.invariant c') := hi
    rw [List.getElem?_set] at hi'
    split at hi'
    · split at hi'
      · cases hi'; exact hc
      · cases hi'
    · exact hg.con i c' hi'
  · have hi' : (s.constraints.set can (.invariant c))[i]? = some (.variant id) := hi
    rw [List.getElem?_set] at hi'
    split at hi'
    · split at hi' <;> cases hi'
    · exact hg.fresh i id hi'

theorem good_note {s : Checker} (hg : Good s) (h : List Req) : Good { s with history := h } :=
  ⟨hg.wf, hg.len, hg.con, hg.var, hg.own, hg.fresh⟩

/-- **a constraint for a variable** -/
theorem varC_sound {o : Orders} {n : Nat} {s s' : Checker} {v : Nat} {c c0 : UConstraint}
    (hC : ∀ {c1 c2 c0 : UConstraint} {s s' : Checker}, Good s → c1.Ok → c2.Ok →
      unifyConstraintPair o n c1 c2 s = .ok (c0, s') → c0.Ok ∧ Claim s s' (CQ c1 c2 c0))
    (hg : Good s) (hc : c.Ok) (h : unifyVarConstraint o (n + 1) v c s = .ok (c0, s')) :
    Claim s s' (VQ v c) := by
  unfold unifyVarConstraint at h
  rw [TcM.bind_eq_ok] at h
  obtain ⟨can, s1, h1, h⟩ := h
  obtain ⟨hv, hcan, rfl⟩ := getCanonicalVar_eq_ok h1
  rw [TcM.bind_eq_ok] at h
  obtain ⟨cs, s2, h2, h⟩ := h
  obtain ⟨hcs, rfl⟩ := getConstraints_eq_ok.mp h2
  have hcan' : can = rt s v := hcan
  subst hcan'
  have hkr := known_root hg hcs
  have hvr : s.Same v (rt s v) := (same_rt hg v).symm
  cases cs with
  | variant id => exact (varianceMismatch_ne.mp h).elim
  | indefinite =>
    dsimp only at h
    rw [TcM.bind_eq_ok] at h
    obtain ⟨_, s3, h3, h⟩ := h
    obtain ⟨hlt, rfl⟩ := setConstraints_eq_ok.mp h3
    rw [TcM.bind_eq_ok] at h
    obtain ⟨_, s4, h4, h⟩ := h
    have h4' := note_eq_ok.mp h4
    obtain ⟨_, h5⟩ := TcM.pure_eq_ok.mp h
    subst h5
    subst h4'
    refine Claim.weakenI (frame0 (x := rt s v) (cs := .invariant c) (pre := []) (new := [⟨v, c.light, [.con c]⟩])
      (Enter.refl fun w hw => .inl (hkr w hw)) (good_set hg hc rfl _) rfl rfl rfl (by simp) rfl (fun w hw => ?_)
      (fun w hw => ?_) (fun id h => nomatch h) (fun R hR => ?_)) fun σ m n ha ih q => ?_
    · refine known_of_get ?_
      show (s.constraints.set (rt s v) _)[rt s w]? = _
      rw [show rt s w = rt s v from hw.trans (rt_rt hg v), List.getElem?_set]
      simp [hlt]
    · refine known_eq_of ?_
      show (s.constraints.set (rt s v) _)[rt s w]? = _
      rw [List.getElem?_set, if_neg]
      exact fun h => hw (h.symm.trans (rt_rt hg v).symm)
    · rw [List.mem_singleton] at hR
      subst hR
      refine ⟨hvr, c, rfl, hc, rfl, fun d hd => ?_⟩
      rw [List.mem_singleton] at hd
      exact hd
    · have hσ : σ v = σ (rt s v) := ha _ _ hvr
      refine vq_of (q.1 _ (.head _)) (.head _) ih fun hh => ?_
      obtain ⟨a1, a2⟩ := q.2 hh
      exact ⟨by rw [hσ]; exact a1, fun t ht => a2 _ (.head _) rfl rfl t ht⟩
  | invariant c1 =>
    dsimp only at h
    rw [TcM.ite_eq_ok] at h
    rcases h with ⟨rfl, h⟩ | ⟨hne, h⟩
    · rw [TcM.bind_eq_ok] at h
      obtain ⟨_, s4, h4, h⟩ := h
      have h4' := note_eq_ok.mp h4
      obtain ⟨_, h5⟩ := TcM.pure_eq_ok.mp h
      subst h5
      subst h4'
      refine Claim.weakenI (frame0 (x := rt s v) (cs := .invariant c1) (pre := []) (new := [⟨v, c1.light, [.con c1]⟩])
        (Enter.refl fun w hw => .inr (hkr w hw)) (good_note hg _) rfl rfl rfl rfl rfl (fun w hw => hkr w hw)
        (fun w hw => rfl) (fun id h => nomatch h) (fun R hR => ?_)) fun σ m n ha ih q => ?_
      · rw [List.mem_singleton] at hR
        subst hR
        refine ⟨hvr, c1, rfl, hc, rfl, fun d hd => ?_⟩
        rw [List.mem_singleton] at hd
        exact hd
      · have hσ : σ v = σ (rt s v) := ha _ _ hvr
        refine vq_of (q.1 _ (.head _)) (.head _) ih fun hh => ?_
        obtain ⟨a1, a2⟩ := q.2 hh
        exact ⟨by rw [hσ]; exact a1, fun t ht => a2 _ (.head _) rfl rfl t ht⟩
    · rw [TcM.bind_eq_ok] at h
      obtain ⟨c0', s3, h3, h⟩ := h
      obtain ⟨hok0, hcl⟩ := hC hg (hg.con _ _ hcs) hc h3
      rw [TcM.bind_eq_ok] at h
      obtain ⟨_, s4, h4, h⟩ := h
      obtain ⟨hlt, rfl⟩ := setConstraints_eq_ok.mp h4
      rw [TcM.bind_eq_ok] at h
      obtain ⟨_, s5, h5, h⟩ := h
      have h5' := note_eq_ok.mp h5
      obtain ⟨_, h6⟩ := TcM.pure_eq_ok.mp h
      subst h6
      subst h5'
      refine Claim.weakenI (frame (x := rt s v) (c1 := c1) (c2 := c) (c0 := c0')
        (R := ⟨v, c.light, [.con c, .con c0']⟩) (pre := []) hg (rt_rt hg v) (hkr _ rfl)
        (Enter.refl fun w hw => .inl (hkr w hw)) hcl hok0 hc rfl rfl rfl (by simp) rfl (fun i => ?_) ?_ (fun i hi hne => ?_)
        hvr (.inr ⟨rfl, rfl⟩) (by simp) (fun d hd => ?_)) fun σ m n ha ih q => ?_
      · show (s3.constraints.set (rt s v) _)[i]? = _ ∨ (s3.constraints.set (rt s v) _)[i]? = _
        rw [List.getElem?_set]
        split
        · rename_i e
          subst e
          exact .inr (by simp [hlt])
        · exact .inl rfl
      · show (s3.constraints.set (rt s v) _)[rt s v]? = _
        rw [List.getElem?_set]
        simp [hlt]
      · show (s3.constraints.set (rt s v) _)[i]? = _
        rw [List.getElem?_set, if_neg (fun h => hne h.symm)]
      · rcases List.mem_cons.mp hd with rfl | hd
        · exact .inr rfl
        · rw [List.mem_singleton] at hd
          exact .inl hd
      · have hsm : s3.Same v (rt s v) := hcl.1.same _ _ hvr
        have hσ : σ v = σ (rt s v) := ha _ _ hsm
        refine vq_of q.1 (.head _) ih fun hh => ?_
        obtain ⟨a1, a2⟩ := q.2 hh
        exact ⟨by rw [hσ]; exact a1, a2⟩

/-! ### joining two classes -/

theorem planPair_eq_ok {v1 v2 : Nat} {s s0 : Checker} {plan : Aliases.Plan} (hg : Good s)
    (h : planPair v1 v2 s = .ok (plan, s0)) :
    ∃ al, s0 = { s with aliases := al } ∧ al.length = s.aliases.length ∧ Aliases.WF al ∧
      (∀ v, Aliases.root al v = if rt s v = max (rt s v1) (rt s v2) then min (rt s v1) (rt s v2) else rt s v) ∧
      ((rt s v1 = rt s v2 ∧ al = s.aliases ∧ ∃ ix, plan = .same ix) ∨
       (rt s v1 ≠ rt s v2 ∧ plan = .transfer (min (rt s v1) (rt s v2)) (max (rt s v1) (rt s v2)))) := by
  unfold planPair at h
  have hn : ∀ {v}, ¬ v < s.aliases.length → s.aliases.get v = .panic := by
    intro v hv
    unfold Aliases.get
    rw [List.getElem?_eq_none (by omega)]
    rfl
  by_cases h1 : v1 < s.aliases.length
  · by_cases h2 : v2 < s.aliases.length
    · obtain ⟨plan', al, e, l, w, r, _, hp⟩ := Aliases.pair_spec (w := fun v1 _ => v1) hg.wf h1 h2
        (fun can fwd a b c _ hm => by
          have := (hg.wf.fwd can fwd c).2.2 v1 hm
          rw [a] at this
          cases this)
      have e' : s.aliases.pairChecker v1 v2 = .ok (plan', al) := e
      rw [e'] at h
      cases h
      refine ⟨al, rfl, l, w, r, ?_⟩
      rcases hp with ⟨a, b, ix, _, c⟩ | hp
      · exact .inl ⟨a, b, ix, c⟩
      · exact .inr hp
    · exfalso
      have : s.aliases.pairChecker v1 v2 = .panic := by
        unfold Aliases.pairChecker Aliases.pair
        rw [if_neg (fun (e : v1 = v2) => h2 (e ▸ h1)), hn h2]
        obtain ⟨x, hx⟩ := Aliases.exists_get h1
        rw [Aliases.get_ok hx]
        rfl
      rw [this] at h
      cases h
  · exfalso
    have : s.aliases.pairChecker v1 v2 = .panic := by
      unfold Aliases.pairChecker Aliases.pair
      rw [hn h1]
      split <;> rfl
    rw [this] at h
    cases h

/-- two variables are made equal -/
theorem pair_sound {o : Orders} (ho : o.Lists) {n : Nat} {s s' : Checker} {v1 v2 : Nat} {a : Unit}
    (hU : ∀ {t1 t2 t0 : UType} {s s' : Checker}, Good s → t1.Firm → t2.Firm → unifyUtype o n t1 t2 s = .ok (t0, s') →
      t0.Firm ∧ Claim s s' (UQ t1 t2 t0))
    (hC : ∀ {c1 c2 c0 : UConstraint} {s s' : Checker}, Good s → c1.Ok → c2.Ok →
      unifyConstraintPair o n c1 c2 s = .ok (c0, s') → c0.Ok ∧ Claim s s' (CQ c1 c2 c0))
    (hg : Good s) (h : unifyVarPair o (n + 1) v1 v2 s = .ok (a, s')) : Claim s s' (PQ v1 v2) := by
  unfold unifyVarPair at h
  rw [TcM.bind_eq_ok] at h
  obtain ⟨plan, s0, h1, h⟩ := h
  obtain ⟨al, hs0, hlen, hwf, hroot, hp⟩ := planPair_eq_ok hg h1
  rcases hp with ⟨hr, rfl, ix, rfl⟩ | ⟨hr, rfl⟩
  · obtain ⟨_, rfl⟩ := TcM.pure_eq_ok.mp h
    subst hs0
    exact Claim.weaken (Claim.refl hg (Q := fun σ m new => new = []) fun _ _ => rfl) fun σ m n ha q =>
      ⟨ha _ _ hr, fun hh => (not_heavy_nil (q ▸ hh)).elim⟩
  dsimp only at h
  generalize hx : min (rt s v1) (rt s v2) = x at *
  generalize hy : max (rt s v1) (rt s v2) = y at *
  have hxy : x < y := by omega
  rw [TcM.bind_eq_ok] at h
  obtain ⟨_, s1, h2, h⟩ := h
  have hs1 := note_eq_ok.mp h2
  clear h1 h2
  have hcon1 : s1.constraints = s.constraints := by subst hs1; subst hs0; rfl
  have hst1 : s1.store = s.store := by subst hs1; subst hs0; rfl
  have hnx1 : s1.nextId = s.nextId := by subst hs1; subst hs0; rfl
  have hh1 : s1.history = s.history ++ [⟨x, none, []⟩] := by subst hs1; subst hs0; rfl
  have hal1 : s1.aliases = al := by subst hs1; subst hs0; rfl
  have hrt1 : ∀ v, rt s1 v = if rt s v = y then x else rt s v := by
    intro v; unfold rt; rw [hal1]; exact hroot v
  have hrx : rt s x = x := by
    rcases Nat.le_total (rt s v1) (rt s v2) with h | h
    · have : x = rt s v1 := by omega
      rw [this]; exact rt_rt hg v1
    · have : x = rt s v2 := by omega
      rw [this]; exact rt_rt hg v2
  have hry : rt s y = y := by
    rcases Nat.le_total (rt s v1) (rt s v2) with h | h
    · have : y = rt s v2 := by omega
      rw [this]; exact rt_rt hg v2
    · have : y = rt s v1 := by omega
      rw [this]; exact rt_rt hg v1
  have hx1 : rt s1 x = x := by rw [hrt1, hrx, if_neg (by omega)]
  have hy1 : rt s1 y = x := by rw [hrt1, hry, if_pos rfl]
  have hyx1 : s1.Same y x := hy1.trans hx1.symm
  have hin : ∀ v, s1.Same v x ↔ rt s v = x ∨ rt s v = y := by
    intro v
    show rt s1 v = rt s1 x ↔ _
    rw [hx1, hrt1]
    split
    · rename_i e; exact ⟨fun _ => .inr e, fun _ => rfl⟩
    · rename_i e; exact ⟨fun h => .inl h, fun h => h.resolve_right e⟩
  have hk1 : ∀ v, s1.known v = s.known (if rt s v = y then x else v) := by
    intro v
    apply known_eq_of
    rw [hcon1, hrt1]
    split
    · rw [hrx]
    · rfl
  have hout : ∀ v, ¬ s1.Same v x → s.known v = s1.known v := by
    intro v hv
    rw [hk1, if_neg (fun h => hv ((hin v).mpr (.inr h)))]
  have hsame1 : ∀ v w, s.Same v w → s1.Same v w := by
    intro v w hvw
    show rt s1 v = rt s1 w
    rw [hrt1, hrt1, show rt s v = rt s w from hvw]
  have hg1 : Good s1 := by
    refine ⟨by rw [hal1]; exact hwf, by rw [hcon1, hal1, hlen]; exact hg.len, by rw [hcon1]; exact hg.con,
      by rw [hst1]; exact hg.var, fun v w id hv hw => ?_, by rw [hcon1, hnx1]; exact hg.fresh⟩
    rw [hk1] at hv hw
    have h := hsame1 _ _ (hg.own _ _ _ hv hw)
    have hz : ∀ v, s1.Same (if rt s v = y then x else v) v := by
      intro v
      split
      · rename_i e; exact ((hin v).mpr (.inr e)).symm
      · rfl
    exact (hz v).symm.trans (h.trans (hz w))
  have hv1x : s1.Same v1 x := (hin v1).mpr (by omega)
  have hv2x : s1.Same v2 x := (hin v2).mpr (by omega)
  have enter : ∀ {here : UConstraints → Prop}, here (s.known x) → here (s.known y) →
      Enter s s1 x here [⟨x, none, []⟩] := by
    intro here hhx hhy
    refine ⟨hsame1, hout, fun v hv => ?_, fun v w hn hs => ?_, fun R hR => ?_, hst1, hnx1, hh1, by rw [hcon1]⟩
    · rcases (hin v).mp hv with h | h
      · rw [known_congr (show s.Same v x from h.trans hrx.symm)]; exact hhx
      · rw [known_congr (show s.Same v y from h.trans hry.symm)]; exact hhy
    · refine ⟨?_, _, .head _, rfl, rfl⟩
      have h1 : rt s1 v = rt s1 w := hs
      rw [hrt1, hrt1] at h1
      refine (hin v).mpr ?_
      split at h1
      · rename_i e; exact .inr e
      · split at h1
        · exact .inl h1
        · exact (hn h1).elim
    · rw [List.mem_singleton] at hR
      subst hR
      exact ⟨rfl, rfl, rfl⟩
  -- it is enough to know the size of the type of the class
  have fin : Claim s s' (fun σ m new => Heavy σ m new → m ≤ sz (σ x)) → Claim s s' (PQ v1 v2) ∨ ¬ s'.Same v1 x ∨ ¬ s'.Same v2 x := by
    intro hcl
    by_cases e1 : s'.Same v1 x
    · by_cases e2 : s'.Same v2 x
      · exact .inl (hcl.weaken fun σ m n ha q => ⟨(ha _ _ e1).trans (ha _ _ e2).symm, fun hh => by
          rw [ha _ _ e1]; exact q hh⟩)
      · exact .inr (.inr e2)
    · exact .inr (.inl e1)
  have fin' : Claim s s' (fun σ m new => Heavy σ m new → m ≤ sz (σ x)) → s'.Same v1 x → s'.Same v2 x →
      Claim s s' (PQ v1 v2) := by
    intro h1 h2 h3
    rcases fin h1 with h | h | h
    · exact h
    · exact (h h2).elim
    · exact (h h3).elim
  unfold transferConstraints at h
  rw [if_neg (by omega), TcM.bind_eq_ok] at h
  obtain ⟨cx, s2, h2, h⟩ := h
  obtain ⟨hcx, rfl⟩ := getConstraints_eq_ok.mp h2
  rw [TcM.bind_eq_ok] at h
  obtain ⟨cy, s3, h3, h⟩ := h
  obtain ⟨hcy, rfl⟩ := getConstraints_eq_ok.mp h3
  clear h2 h3
  rw [hcon1] at hcx hcy
  have hkx : s.known x = cx := known_of_get (by rw [hrx]; exact hcx)
  have hky : s.known y = cy := known_of_get (by rw [hry]; exact hcy)
  have hk1x : ∀ v, s1.Same v x → s1.known v = cx := by
    intro v hv
    rw [known_congr hv, hk1, hrx, if_neg (by omega), hkx]
  -- the cases in which one of the classes has no constraint
  have easy : ∀ {cs : UConstraints} {l : List UConstraints}, s'.constraints = l → s'.aliases = s1.aliases →
      s'.store = s1.store → s'.nextId = s1.nextId → s'.history = s1.history →
      (cx = .indefinite ∨ cx = cs) → (cy = .indefinite ∨ cy = cs) → (cx = cs ∨ cy = cs) →
      l.length = s1.constraints.length →
      l[x]? = some cs → (∀ i : Nat, i ≠ x → i ≠ y → l[i]? = s1.constraints[i]?) →
      (∀ (i : Nat) (c : UConstraints), l[i]? = some c → s1.constraints[i]? = some c ∨ c = cs) → Claim s s' (PQ v1 v2) := by
    intro cs l el ea es en eh hcx' hcy' hor hll hlx hli hlc
    have hsame' : ∀ {v w}, s'.Same v w ↔ s1.Same v w := by
      intro v w; unfold Checker.Same; rw [ea]
    have hin' : ∀ v, s1.Same v x → s'.known v = cs := by
      intro v hv
      refine known_of_get ?_
      have : rt s' v = x := by
        unfold rt; rw [ea]; exact hv.trans hx1
      rw [this, el]; exact hlx
    have hout' : ∀ v, ¬ s1.Same v x → s'.known v = s1.known v := by
      intro v hv
      refine known_eq_of ?_
      have : rt s' v = rt s1 v := by unfold rt; rw [ea]
      rw [this, el]
      refine hli _ (fun h => hv (h.trans hx1.symm)) (fun h => ?_)
      have := rt_rt hg1 v
      rw [h, hy1] at this
      omega
    have hmem : ∃ v, s1.Same v x ∧ s.known v = cs := by
      rcases hor with h | h
      · exact ⟨x, rfl, hkx.trans h⟩
      · exact ⟨y, hyx1, hky.trans h⟩
    have hcsin : ∃ i : Nat, s.constraints[i]? = some cs := by
      rcases hor with h | h
      · exact ⟨x, h ▸ hcx⟩
      · exact ⟨y, h ▸ hcy⟩
    have hg' : Good s' := by
      refine ⟨by rw [ea]; exact hg1.wf, by rw [el, ea, hll]; exact hg1.len, fun i c hi => ?_, by rw [es]; exact hg1.var,
        fun v w id hv hw => ?_, fun i id hi => ?_⟩
      · rw [el] at hi
        rcases hlc i _ hi with h | h
        · exact hg1.con i c h
        · obtain ⟨j, hj⟩ := hcsin
          rw [← h] at hj
          exact hg.con j c hj
      · rw [hsame']
        obtain ⟨z, hz, hkz⟩ := hmem
        by_cases h1 : s1.Same v x
        · by_cases h2 : s1.Same w x
          · exact h1.trans h2.symm
          · exfalso
            rw [hin' v h1] at hv
            rw [hout' w h2, ← hout w h2] at hw
            exact h2 ((hsame1 _ _ (hg.own _ _ _ hw (hkz.trans hv))).trans hz)
        · by_cases h2 : s1.Same w x
          · exfalso
            rw [hin' w h2] at hw
            rw [hout' v h1, ← hout v h1] at hv
            exact h1 ((hsame1 _ _ (hg.own _ _ _ hv (hkz.trans hw))).trans hz)
          · rw [hout' v h1] at hv
            rw [hout' w h2] at hw
            exact hg1.own _ _ _ hv hw
      · rw [en]
        rw [el] at hi
        rcases hlc i _ hi with h | h
        · exact hg1.fresh i id h
        · obtain ⟨j, hj⟩ := hcsin
          rw [← h] at hj
          rw [hnx1]; exact hg.fresh j id hj
    have hcl := frame0 (st := s) (s0 := s1) (s2 := s') (x := x) (cs := cs) (pre := [⟨x, none, []⟩]) (new := [])
      (enter (by rw [hkx]; exact hcx') (by rw [hky]; exact hcy')) hg' ea es en (by rw [el, hll]) (by rw [eh]; simp)
      hin' hout' (fun id _ => hmem) (fun R hR => nomatch hR)
    exact fin' (hcl.weaken fun σ m n ha q hh => (q.2 hh).1) (hsame'.mpr hv1x) (hsame'.mpr hv2x)
  have hlx : x < s1.constraints.length := by
    rw [hcon1]; exact (List.getElem?_eq_some_iff.mp hcx).1
  have hly : y < s1.constraints.length := by
    rw [hcon1]; exact (List.getElem?_eq_some_iff.mp hcy).1
  have setx : ∀ {c : UConstraints}, cx = .indefinite → cy = c → setConstraints x c s1 = .ok (a, s') →
      Claim s s' (PQ v1 v2) := by
    intro c e1 e2 hset
    obtain ⟨_, hs'⟩ := setConstraints_eq_ok.mp hset
    refine easy (cs := c) (l := s1.constraints.set x c) (by rw [hs']) (by rw [hs']) (by rw [hs']) (by rw [hs']) (by rw [hs'])
      (.inl e1) (.inr e2) (.inr e2) (by simp) (by simp [hlx]) (fun i h1 h2 => ?_) (fun i d hd => ?_)
    · rw [List.getElem?_set, if_neg (fun h => h1 h.symm)]
    · rw [List.getElem?_set] at hd
      split at hd
      · cases hd; exact .inr rfl
      · exact .inl hd
  have sety : ∀ {c : UConstraints}, cy = .indefinite → cx = c → setConstraints y c s1 = .ok (a, s') →
      Claim s s' (PQ v1 v2) := by
    intro c e1 e2 hset
    obtain ⟨_, hs'⟩ := setConstraints_eq_ok.mp hset
    refine easy (cs := c) (l := s1.constraints.set y c) (by rw [hs']) (by rw [hs']) (by rw [hs']) (by rw [hs']) (by rw [hs'])
      (.inr e2) (.inl e1) (.inl e2) (by simp) ?_ (fun i h1 h2 => ?_) (fun i d hd => ?_)
    · rw [List.getElem?_set, if_neg (by omega), hcon1, hcx, e2]
    · rw [List.getElem?_set, if_neg (fun h => h2 h.symm)]
    · rw [List.getElem?_set] at hd
      split at hd
      · cases hd; exact .inr rfl
      · exact .inl hd
  have vac : ∀ {c : UConstraint}, c.isVacuous = true → c.Ok → False := by
    intro c h1 h2
    cases c with
    | equiv t => cases t <;> simp_all [UConstraint.isVacuous, UConstraint.Ok, UType.Firm]
    | elem _ => cases h1
    | proj _ => cases h1
    | numTree _ => cases h1
  cases hcx' : cx with
  | indefinite =>
    rw [hcx'] at h
    cases hcy' : cy with
    | indefinite =>
      rw [hcy'] at h
      obtain ⟨_, hs'⟩ := TcM.pure_eq_ok.mp h
      subst hs'
      refine easy (cs := .indefinite) rfl rfl rfl rfl rfl (.inl hcx') (.inl hcy') (.inl hcx') rfl
        (by rw [hcon1, hcx, hcx']) (fun i _ _ => rfl) (fun i c hc => .inl hc)
    | variant id => rw [hcy'] at h; exact setx hcx' hcy' h
    | invariant c => rw [hcy'] at h; exact setx hcx' hcy' h
  | variant id1 =>
    rw [hcx'] at h
    cases hcy' : cy with
    | indefinite => rw [hcy'] at h; exact sety hcy' hcx' h
    | invariant c =>
      rw [hcy'] at h
      dsimp only at h
      rw [TcM.ite_eq_ok] at h
      rcases h with ⟨hv, _⟩ | ⟨_, h⟩
      · exact (vac hv (hg.con _ _ (hcy' ▸ hcy))).elim
      · exact (varianceMismatch_ne.mp h).elim
    | variant id2 =>
      rw [hcy'] at h
      dsimp only at h
      have hne : id1 ≠ id2 := by
        intro e
        have := hg.own x y id1 (hkx.trans hcx') (by rw [hky, hcy', e])
        have : rt s x = rt s y := this
        omega
      obtain ⟨hsm, hcl⟩ := varmaps_sound ho hU hg hg1 hx1 hy1 hxy (hkx.trans hcx') (hky.trans hcy') hne
        (by rw [hk1x x rfl, hcx']) (enter (.inl (hkx.trans hcx')) (.inr (hky.trans hcy')))
        ⟨_, .head _, rfl, rfl⟩ h
      exact fin' hcl (hsm _ _ hv1x) (hsm _ _ hv2x)
  | invariant c1 =>
    rw [hcx'] at h
    cases hcy' : cy with
    | indefinite => rw [hcy'] at h; exact sety hcy' hcx' h
    | variant id =>
      rw [hcy'] at h
      dsimp only at h
      rw [TcM.ite_eq_ok] at h
      rcases h with ⟨hv, _⟩ | ⟨_, h⟩
      · exact (vac hv (hg.con _ _ (hcx' ▸ hcx))).elim
      · exact (varianceMismatch_ne.mp h).elim
    | invariant c2 =>
      rw [hcy'] at h
      dsimp only at h
      have hok1 : c1.Ok := hg.con _ _ (hcx' ▸ hcx)
      have hok2 : c2.Ok := hg.con _ _ (hcy' ▸ hcy)
      rw [TcM.bind_eq_ok] at h
      obtain ⟨c0, s4, h4, h⟩ := h
      obtain ⟨hok0, hcl⟩ := hC hg1 hok1 hok2 h4
      rw [TcM.bind_eq_ok] at h
      obtain ⟨_, s5, h5, h⟩ := h
      obtain ⟨hl5, h5'⟩ := setConstraints_eq_ok.mp h5
      rw [TcM.bind_eq_ok] at h
      obtain ⟨_, s6, h6, h⟩ := h
      obtain ⟨hl6, h6'⟩ := setConstraints_eq_ok.mp h6
      have h7 := note_eq_ok.mp h
      have hc4 : s'.constraints = (s4.constraints.set x (.invariant c0)).set y (.invariant c0) := by
        subst h7; subst h6'; subst h5'; rfl
      have hyn : rt s4 y ≠ y := by
        intro hh
        have h1 : rt s4 y = rt s4 x := hcl.1.same _ _ hyx1
        have h2 : rt s4 x ≤ x := Aliases.root_le hcl.1.good.wf x
        omega
      have hl4y : y < s4.constraints.length := by subst h5'; simpa using hl6
      have hfr := frame (st := s) (s0 := s1) (s1 := s4) (s2 := s') (x := x) (c1 := c1) (c2 := c2) (c0 := c0)
        (R := ⟨x, none, [.con c0]⟩) (pre := [⟨x, none, []⟩]) hg1 hx1 (by rw [hk1x x rfl, hcx'])
        (enter (.inl (hkx.trans hcx')) (.inr (hky.trans hcy'))) hcl hok0 hok2
        (by subst h7; subst h6'; subst h5'; rfl) (by subst h7; subst h6'; subst h5'; rfl)
        (by subst h7; subst h6'; subst h5'; rfl) (by rw [hc4]; simp)
        (by subst h7; subst h6'; subst h5'; rfl)
        (fun i => by
          rw [hc4, List.getElem?_set]
          split
          · right; rename_i e; subst e; simp [hl4y]
          · rw [List.getElem?_set]
            split
            · right; rename_i e; subst e; simp [hl5]
            · exact .inl rfl)
        (by rw [hc4, List.getElem?_set, if_neg (by omega), List.getElem?_set]; simp [hl5])
        (fun i hi hne => by
          rw [hc4, List.getElem?_set, if_neg (fun e => hyn (by rw [e]; exact hi)), List.getElem?_set,
            if_neg (fun e => hne e.symm)])
        rfl (.inl rfl) (.head _) (fun d hd => by rw [List.mem_singleton] at hd; exact .inl hd)
      have hal' : s'.aliases = s4.aliases := by subst h7; subst h6'; subst h5'; rfl
      have hsm : ∀ v, s1.Same v x → s'.Same v x := by
        intro v hv
        have := hcl.1.same _ _ hv
        unfold Checker.Same at this ⊢
        rw [hal']; exact this
      exact fin' (hfr.weaken fun σ m n _ q hh => (q.2 hh).1) (hsm v1 hv1x) (hsm v2 hv2x)

end Tc
end Doodle
