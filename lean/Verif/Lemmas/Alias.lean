import Verif.Model.Inference

/-! Lemmas on tables of aliased variables. -/

namespace Doodle
namespace Tc
namespace Aliases

/-- what is found by following the back reference, if there is one -/
def root (t : Aliases) (v : Nat) : Nat :=
  match t[v]? with
  | some (Alias.backRef c) => c
  | _ => v

/-- back references lead to smaller canonical variables that know about them, and forward references are back
references -/
structure WF (t : Aliases) : Prop where
  back : ∀ i c, t[i]? = some (Alias.backRef c) → c < i ∧ ∃ fwd, t[c]? = some (Alias.canonical fwd) ∧ i ∈ fwd
  fwd : ∀ c fwd, t[c]? = some (Alias.canonical fwd) →
    fwd ≠ [] ∧ fwd.Nodup ∧ ∀ i ∈ fwd, t[i]? = some (Alias.backRef c)

theorem ok_bind {α β : Type} (a : α) (f : α → Panicky β) : (Panicky.ok a >>= f) = f a := rfl

theorem get_ok {t : Aliases} {i : Nat} {a : Alias} (h : t[i]? = some a) : t.get i = .ok a := by
  unfold get; rw [h]; rfl

theorem lt_of_get {t : Aliases} {i : Nat} {a : Alias} (h : t[i]? = some a) : i < t.length := by
  rw [List.getElem?_eq_some_iff] at h
  exact h.1

theorem exists_get {t : Aliases} {i : Nat} (h : i < t.length) : ∃ a, t[i]? = some a :=
  ⟨t[i], List.getElem?_eq_getElem h⟩

/-- a root is not a back reference -/
theorem root_eq_self {t : Aliases} (hw : WF t) {v : Nat} :
    root t v = v ↔ ∀ c, t[v]? ≠ some (Alias.backRef c) := by
  unfold root
  constructor
  · intro h c hc
    rw [hc] at h
    have := (hw.back v c hc).1
    simp only at h
    omega
  · intro h
    split
    · rename_i c hc
      exact absurd hc (h c)
    · rfl

theorem root_root {t : Aliases} (hw : WF t) (v : Nat) : root t (root t v) = root t v := by
  by_cases hb : ∃ c, t[v]? = some (Alias.backRef c)
  · obtain ⟨c, hc⟩ := hb
    obtain ⟨_, fwd, hf, _⟩ := hw.back v c hc
    have hr : root t v = c := by unfold root; rw [hc]
    rw [hr]
    unfold root
    rw [hf]
  · have hr := (root_eq_self hw (v := v)).mpr fun c hc => hb ⟨c, hc⟩
    rw [hr, hr]

theorem root_le {t : Aliases} (hw : WF t) (v : Nat) : root t v ≤ v := by
  unfold root
  split
  · rename_i c hc
    exact Nat.le_of_lt (hw.back v c hc).1
  · exact Nat.le_refl _

theorem getCanonical_ok {t : Aliases} {v : Nat} (h : v < t.length) : t.getCanonical v = .ok (root t v) := by
  obtain ⟨a, ha⟩ := exists_get h
  unfold getCanonical root
  rw [get_ok ha, ha]
  cases a <;> rfl

/-! ### moving forward references -/

/-- an alias with some forward references added -/
def addAll (a : Alias) (l : List Nat) : Alias :=
  match l with
  | [] => a
  | l => .canonical (a.fwdRefs ++ l)

theorem addForwardRef_ok {a : Alias} {x : Nat} (hb : ∀ c, a ≠ .backRef c) (hx : x ∉ a.fwdRefs) :
    a.addForwardRef x = .ok (.canonical (a.fwdRefs ++ [x])) := by
  cases a with
  | ground => rfl
  | backRef c => exact absurd rfl (hb c)
  | canonical fwd =>
    have hx' : x ∉ fwd := hx
    show Panicky.ok (Alias.canonical (if x ∈ fwd then fwd else fwd ++ [x])) = Panicky.ok (.canonical (fwd ++ [x]))
    rw [if_neg hx']

theorem containsFwdRef_eq (a : Alias) (x : Nat) : a.containsFwdRef x = decide (x ∈ a.fwdRefs) := by
  cases a <;> rfl

theorem repoint_ok {t : Aliases} {lo hi : Nat} {a : Alias} (hhi : hi < t.length) (hne : lo ≠ hi)
    (ha : t[lo]? = some a) (hb : ∀ c, a ≠ .backRef c) (hx : hi ∉ a.fwdRefs) :
    t.repoint lo hi = .ok ((t.set hi (.backRef lo)).set lo (.canonical (a.fwdRefs ++ [hi]))) := by
  obtain ⟨b, hb'⟩ := exists_get hhi
  have h1 : (t.set hi (.backRef lo))[lo]? = some a := by
    rw [List.getElem?_set_ne (Ne.symm hne), ha]
  unfold repoint
  rw [get_ok hb']
  show ((Aliases.get (t.set hi (.backRef lo)) lo) >>= fun a => a.addForwardRef hi >>= fun a' =>
    Panicky.ok ((t.set hi (.backRef lo)).set lo a')) = _
  rw [get_ok h1]
  show (a.addForwardRef hi >>= fun a' => Panicky.ok ((t.set hi (.backRef lo)).set lo a')) = _
  rw [addForwardRef_ok hb hx]
  rfl

theorem repointAll_ok (a1 : Nat) : ∀ (l : List Nat) (t : Aliases) (a : Alias), t[a1]? = some a →
    (∀ c, a ≠ .backRef c) → l.Nodup → a1 ∉ l → (∀ i ∈ l, i < t.length) → (∀ i ∈ l, i ∉ a.fwdRefs) →
    ∃ t', repointAll a1 t l = .ok t' ∧ t'.length = t.length ∧
      ∀ i, t'[i]? = if i ∈ l then some (Alias.backRef a1) else if i = a1 then some (addAll a l) else t[i]?
  | [], t, a, ha, _, _, _, _, _ => by
    refine ⟨t, rfl, rfl, fun i => ?_⟩
    simp only [List.not_mem_nil, if_false]
    split
    · rename_i h; rw [h, ha]; rfl
    · rfl
  | x :: l, t, a, ha, hb, hn, ha1, hl, hf => by
    have hx : x ∉ a.fwdRefs := hf x List.mem_cons_self
    have hne : a1 ≠ x := fun h => ha1 (h ▸ List.mem_cons_self)
    have hxl : x < t.length := hl x List.mem_cons_self
    have hn' := List.nodup_cons.mp hn
    have hr := repoint_ok hxl hne ha hb hx
    have hlt : a1 < t.length := lt_of_get ha
    have hget : ((t.set x (.backRef a1)).set a1 (.canonical (a.fwdRefs ++ [x])))[a1]? =
        some (Alias.canonical (a.fwdRefs ++ [x])) := by
      rw [List.getElem?_set_self (by rw [List.length_set]; exact hlt)]
    obtain ⟨t', h1, h2, h3⟩ := repointAll_ok a1 l _ _ hget (fun c h => by cases h) hn'.2
      (fun h => ha1 (List.mem_cons_of_mem _ h))
      (fun i hi => by
        rw [List.length_set, List.length_set]
        exact hl i (List.mem_cons_of_mem _ hi))
      (fun i hi => by
        show i ∉ a.fwdRefs ++ [x]
        rw [List.mem_append, List.mem_singleton]
        rintro (h | h)
        · exact hf i (List.mem_cons_of_mem _ hi) h
        · exact hn'.1 (h ▸ hi))
    refine ⟨t', ?_, by rw [h2, List.length_set, List.length_set], fun i => ?_⟩
    · unfold repointAll
      rw [get_ok ha]
      show (if a.containsFwdRef x = true then Panicky.panic else t.repoint a1 x >>= fun t' => repointAll a1 t' l) = _
      rw [containsFwdRef_eq, if_neg (by simpa using hx), hr]
      exact h1
    · rw [h3]
      by_cases hil : i ∈ l
      · rw [if_pos hil, if_pos (List.mem_cons_of_mem _ hil)]
      rw [if_neg hil]
      by_cases hi1 : i = a1
      · subst hi1
        rw [if_pos rfl, if_neg ha1, if_pos rfl]
        unfold addAll
        cases l with
        | nil => rfl
        | cons y l => simp only [Alias.fwdRefs, List.append_assoc, List.cons_append, List.nil_append]
      rw [if_neg hi1, if_neg hi1, List.getElem?_set_ne (Ne.symm hi1)]
      by_cases hix : i = x
      · subst hix
        rw [if_pos List.mem_cons_self, List.getElem?_set_self hxl]
      · rw [List.getElem?_set_ne (Ne.symm hix), if_neg]
        rw [List.mem_cons]
        rintro (h | h)
        · exact hix h
        · exact hil h

/-- all entries after `recanonicalize` -/
theorem recanonicalize_get {t : Aliases} (hw : WF t) {lo hi : Nat} (hne : lo ≠ hi) {a b : Alias}
    (ha : t[lo]? = some a) (hb : t[hi]? = some b) (har : ∀ c, a ≠ .backRef c) (hbr : ∀ c, b ≠ .backRef c) :
    ∃ t', t.recanonicalize lo hi = .ok t' ∧ t'.length = t.length ∧
      ∀ i, t'[i]? = if i = lo then some (Alias.canonical (a.fwdRefs ++ b.fwdRefs ++ [hi]))
        else if i ∈ b.fwdRefs ∨ i = hi then some (Alias.backRef lo) else t[i]? := by
  have hlo := lt_of_get ha
  have hhi := lt_of_get hb
  have hbf : b.fwdRefs.Nodup ∧ ∀ i ∈ b.fwdRefs, t[i]? = some (Alias.backRef hi) := by
    cases b with
    | canonical f => exact ⟨(hw.fwd hi f hb).2.1, (hw.fwd hi f hb).2.2⟩
    | ground => exact ⟨List.nodup_nil, fun i hi => by cases hi⟩
    | backRef c => exact absurd rfl (hbr c)
  have haf : ∀ i ∈ a.fwdRefs, t[i]? = some (Alias.backRef lo) := by
    cases a with
    | canonical f => exact (hw.fwd lo f ha).2.2
    | ground => exact fun i hi => by cases hi
    | backRef c => exact absurd rfl (har c)
  have hlob : lo ∉ b.fwdRefs := fun h => by
    have := hbf.2 lo h
    rw [ha] at this
    exact har hi (Option.some.inj this)
  have hdisj : ∀ i ∈ b.fwdRefs, i ∉ a.fwdRefs := fun i h1 h2 => by
    have e1 := hbf.2 i h1
    rw [haf i h2] at e1
    cases e1
    exact hne rfl
  have hhia : hi ∉ a.fwdRefs := fun h => by
    have := haf hi h
    rw [hb] at this
    exact hbr lo (Option.some.inj this)
  have hhib : hi ∉ b.fwdRefs := fun h => by
    have := hbf.2 hi h
    rw [hb] at this
    exact hbr hi (Option.some.inj this)
  have h1 : (t.set hi (.backRef lo))[lo]? = some a := by
    rw [List.getElem?_set_ne (Ne.symm hne), ha]
  obtain ⟨t1, e1, l1, g1⟩ := repointAll_ok lo b.fwdRefs (t.set hi (.backRef lo)) a h1 har hbf.1 hlob
    (fun i hi => by rw [List.length_set]; exact lt_of_get (hbf.2 i hi)) hdisj
  have hg : t1[lo]? = some (addAll a b.fwdRefs) := by rw [g1, if_neg hlob, if_pos rfl]
  have hfr : (addAll a b.fwdRefs).fwdRefs = a.fwdRefs ++ b.fwdRefs := by
    unfold addAll
    split
    · rename_i h; rw [h, List.append_nil]
    · rfl
  have hadd : (addAll a b.fwdRefs).addForwardRef hi =
      .ok (.canonical (a.fwdRefs ++ b.fwdRefs ++ [hi])) := by
    rw [← hfr]
    apply addForwardRef_ok
    · intro c hc
      unfold addAll at hc
      split at hc
      · exact har c hc
      · cases hc
    · rw [hfr, List.mem_append]
      rintro (h | h)
      · exact hhia h
      · exact hhib h
  rw [List.length_set] at l1
  refine ⟨t1.set lo (.canonical (a.fwdRefs ++ b.fwdRefs ++ [hi])), ?_, by rw [List.length_set, l1], fun i => ?_⟩
  · unfold recanonicalize
    rw [get_ok hb]
    show (repointAll lo (t.set hi (.backRef lo)) b.fwdRefs >>= fun t' => Aliases.get t' lo >>= fun al =>
      al.addForwardRef hi >>= fun al' => Panicky.ok (t'.set lo al')) = _
    rw [e1]
    show (Aliases.get t1 lo >>= fun al => al.addForwardRef hi >>= fun al' => Panicky.ok (t1.set lo al')) = _
    rw [get_ok hg]
    show ((addAll a b.fwdRefs).addForwardRef hi >>= fun al' => Panicky.ok (t1.set lo al')) = _
    rw [hadd]
    rfl
  · by_cases hil : i = lo
    · subst hil
      rw [if_pos rfl, List.getElem?_set_self (by omega)]
    rw [if_neg hil, List.getElem?_set_ne (Ne.symm hil), g1, if_neg hil]
    by_cases hib : i ∈ b.fwdRefs
    · rw [if_pos hib, if_pos (.inl hib)]
    rw [if_neg hib]
    by_cases hih : i = hi
    · subst hih
      rw [List.getElem?_set_self hhi, if_pos (.inr rfl)]
    · rw [List.getElem?_set_ne (Ne.symm hih), if_neg (by simp [hib, hih])]

/-- `recanonicalize` joins the class of the greater root to that of the lesser, and does nothing else -/
theorem recanonicalize_spec {t : Aliases} (hw : WF t) {lo hi : Nat} (hlt : lo < hi) (hhi : hi < t.length)
    (hrl : root t lo = lo) (hrh : root t hi = hi) :
    ∃ t', t.recanonicalize lo hi = .ok t' ∧ t'.length = t.length ∧ WF t' ∧
      (∀ v, root t' v = if root t v = hi then lo else root t v) ∧
      (∀ i, root t i ≠ lo → root t i ≠ hi → t'[i]? = t[i]?) := by
  obtain ⟨a, ha⟩ := exists_get (Nat.lt_trans hlt hhi)
  obtain ⟨b, hb⟩ := exists_get hhi
  have har : ∀ c, a ≠ .backRef c := fun c h => (root_eq_self hw).mp hrl c (by rw [ha, h])
  have hbr : ∀ c, b ≠ .backRef c := fun c h => (root_eq_self hw).mp hrh c (by rw [hb, h])
  obtain ⟨t', e, l, g⟩ := recanonicalize_get hw (Nat.ne_of_lt hlt) ha hb har hbr
  have hbf : ∀ i, i ∈ b.fwdRefs ↔ t[i]? = some (Alias.backRef hi) := by
    intro i
    cases b with
    | canonical f =>
      refine ⟨fun h => (hw.fwd hi f hb).2.2 i h, fun h => ?_⟩
      obtain ⟨_, f', h1, h2⟩ := hw.back i hi h
      rw [hb] at h1
      cases h1
      exact h2
    | ground =>
      refine ⟨fun h => (by cases h), fun h => ?_⟩
      obtain ⟨_, f', h1, h2⟩ := hw.back i hi h
      rw [hb] at h1
      cases h1
    | backRef c => exact absurd rfl (hbr c)
  have haf : ∀ i, i ∈ a.fwdRefs ↔ t[i]? = some (Alias.backRef lo) := by
    intro i
    cases a with
    | canonical f =>
      refine ⟨fun h => (hw.fwd lo f ha).2.2 i h, fun h => ?_⟩
      obtain ⟨_, f', h1, h2⟩ := hw.back i lo h
      rw [ha] at h1
      cases h1
      exact h2
    | ground =>
      refine ⟨fun h => (by cases h), fun h => ?_⟩
      obtain ⟨_, f', h1, h2⟩ := hw.back i lo h
      rw [ha] at h1
      cases h1
    | backRef c => exact absurd rfl (har c)
  have hbn : b.fwdRefs.Nodup := by
    cases b with
    | canonical f => exact (hw.fwd hi f hb).2.1
    | ground => exact List.nodup_nil
    | backRef c => exact absurd rfl (hbr c)
  have han : a.fwdRefs.Nodup := by
    cases a with
    | canonical f => exact (hw.fwd lo f ha).2.1
    | ground => exact List.nodup_nil
    | backRef c => exact absurd rfl (har c)
  -- entries that stay as they are
  have hother : ∀ i : Nat, i ≠ lo → t[i]? ≠ some (Alias.backRef hi) → i ≠ hi → t'[i]? = t[i]? := by
    intro i h1 h2 h3
    rw [g, if_neg h1, if_neg]
    rintro (h | h)
    · exact h2 ((hbf i).mp h)
    · exact h3 h
  have hglo : t'[lo]? = some (Alias.canonical (a.fwdRefs ++ b.fwdRefs ++ [hi])) := by rw [g, if_pos rfl]
  have hghi : t'[hi]? = some (Alias.backRef lo) := by
    rw [g, if_neg (by omega), if_pos (.inr rfl)]
  have hgb : ∀ i : Nat, t[i]? = some (Alias.backRef hi) → t'[i]? = some (Alias.backRef lo) := by
    intro i h
    rw [g, if_neg, if_pos (.inl ((hbf i).mpr h))]
    rintro rfl
    rw [ha] at h
    exact har _ (Option.some.inj h)
  refine ⟨t', e, l, ⟨?_, ?_⟩, ?_, ?_⟩
  · -- back references
    intro i c h
    by_cases h1 : i = lo
    · subst h1; rw [hglo] at h; cases h
    by_cases h2 : i = hi
    · subst h2
      rw [hghi] at h
      cases h
      exact ⟨hlt, _, hglo, by simp⟩
    by_cases h3 : t[i]? = some (Alias.backRef hi)
    · rw [hgb i h3] at h
      cases h
      refine ⟨Nat.lt_trans hlt (hw.back i hi h3).1, _, hglo, ?_⟩
      simp [(hbf i).mpr h3]
    · rw [hother i h1 h3 h2] at h
      obtain ⟨h4, f, h5, h6⟩ := hw.back i c h
      by_cases hc : c = lo
      · subst hc
        rw [ha] at h5
        cases h5
        exact ⟨h4, _, hglo, by simp only [Alias.fwdRefs, List.append_assoc]; exact List.mem_append_left _ h6⟩
      · refine ⟨h4, f, ?_, h6⟩
        rw [hother c hc (fun hh => ?_) (fun hh => h3 (hh ▸ h)), h5]
        rw [h5] at hh
        cases hh
  · -- forward references
    intro c f h
    by_cases h1 : c = lo
    · subst h1
      rw [hglo] at h
      cases h
      refine ⟨by simp, ?_, fun i hi' => ?_⟩
      · rw [List.append_assoc, List.nodup_append]
        refine ⟨han, ?_, ?_⟩
        · rw [List.nodup_append]
          refine ⟨hbn, by simp, ?_⟩
          intro x hx y hy
          rw [List.mem_singleton] at hy
          rintro rfl
          rw [hy] at hx
          have := (hbf hi).mp hx
          rw [hb] at this
          exact hbr _ (Option.some.inj this)
        · intro x hx y hy
          rintro rfl
          have e1 := (haf x).mp hx
          rw [List.mem_append, List.mem_singleton] at hy
          rcases hy with hy | hy
          · rw [(hbf x).mp hy] at e1
            cases e1
            omega
          · rw [hy, hb] at e1
            exact hbr _ (Option.some.inj e1)
      · rw [List.mem_append, List.mem_append, List.mem_singleton] at hi'
        rcases hi' with (h2 | h2) | h2
        · have e1 := (haf i).mp h2
          rw [hother i (fun hh => ?_) (fun hh => ?_) (fun hh => ?_), e1]
          · rw [hh, ha] at e1; exact har _ (Option.some.inj e1)
          · rw [e1] at hh; cases hh; omega
          · rw [hh, hb] at e1; exact hbr _ (Option.some.inj e1)
        · exact hgb i ((hbf i).mp h2)
        · rw [h2]; exact hghi
    by_cases h2 : c = hi
    · subst h2; rw [hghi] at h; cases h
    by_cases h3 : t[c]? = some (Alias.backRef hi)
    · rw [hgb c h3] at h; cases h
    · rw [hother c h1 h3 h2] at h
      obtain ⟨h4, h5, h6⟩ := hw.fwd c f h
      refine ⟨h4, h5, fun i hi' => ?_⟩
      have e1 := h6 i hi'
      rw [hother i (fun hh => ?_) (fun hh => ?_) (fun hh => ?_), e1]
      · rw [hh, ha] at e1; exact har _ (Option.some.inj e1)
      · rw [e1] at hh; cases hh; exact h2 rfl
      · rw [hh, hb] at e1; exact hbr _ (Option.some.inj e1)
  · -- roots
    intro v
    by_cases h1 : v = lo
    · subst h1
      rw [hrl, if_neg (by omega)]
      unfold root; rw [hglo]
    by_cases h2 : v = hi
    · subst h2
      rw [hrh, if_pos rfl]
      unfold root; rw [hghi]
    by_cases h3 : t[v]? = some (Alias.backRef hi)
    · have : root t v = hi := by unfold root; rw [h3]
      rw [this, if_pos rfl]
      unfold root; rw [hgb v h3]
    · have hr : root t' v = root t v := by unfold root; rw [hother v h1 h3 h2]
      rw [hr, if_neg]
      intro hh
      unfold root at hh
      split at hh
      · rename_i c hc; exact h3 (by rw [hc, hh])
      · exact h2 hh
  · intro i h1 h2
    apply hother
    · rintro rfl; exact h1 hrl
    · intro hh; apply h2; unfold root; rw [hh]
    · rintro rfl; exact h2 hrh

theorem repoint_eq_recanonicalize {t : Aliases} {lo hi : Nat} (h : t[hi]? = some Alias.ground) :
    t.repoint lo hi = t.recanonicalize lo hi := by
  unfold repoint recanonicalize
  rw [get_ok h]
  rfl

theorem repointPlan_eq {t : Aliases} {lo hi : Nat} (h : t[hi]? = some Alias.ground) :
    t.repointPlan lo hi = t.recanonPlan lo hi := by
  unfold repointPlan recanonPlan
  rw [repoint_eq_recanonicalize h]

/-- in every arm, `unify_var_pair` finds the roots and either they are equal or it joins the greater to the
lesser -/
theorem pair_eq {w : Nat → Nat → Nat} {t : Aliases} (hw : WF t) {v1 v2 : Nat} (h1 : v1 < t.length)
    (h2 : v2 < t.length)
    (hok : ∀ can fwd, t[v1]? = some Alias.ground → t[v2]? = some (Alias.backRef can) → t[can]? = some (Alias.canonical fwd) →
      v1 < can → w v1 v2 ∉ fwd) :
    (root t v1 = root t v2 → ∃ ix, ix < t.length ∧ t.pair w v1 v2 = .ok (.same ix, t)) ∧
    (root t v1 < root t v2 → t.pair w v1 v2 = t.recanonPlan (root t v1) (root t v2)) ∧
    (root t v2 < root t v1 → t.pair w v1 v2 = t.recanonPlan (root t v2) (root t v1)) := by
  obtain ⟨x, hx⟩ := exists_get h1
  obtain ⟨y, hy⟩ := exists_get h2
  by_cases hv : v1 = v2
  · subst hv
    refine ⟨fun _ => ⟨v1, h1, ?_⟩, fun h => absurd h (Nat.lt_irrefl _), fun h => absurd h (Nat.lt_irrefl _)⟩
    unfold pair
    rw [if_pos rfl, get_ok hx]
    rfl
  unfold pair
  rw [if_neg hv, get_ok hx, get_ok hy]
  have hrx : root t v1 = match (some x : Option Alias) with | some (Alias.backRef c) => c | _ => v1 := by
    unfold root; rw [hx]
  have hry : root t v2 = match (some y : Option Alias) with | some (Alias.backRef c) => c | _ => v2 := by
    unfold root; rw [hy]
  rw [hrx, hry]
  simp only [Aliases.ok_bind]
  cases x with
  | ground =>
    cases y with
    | ground =>
      simp only
      refine ⟨fun h => absurd h hv, fun h => ?_, fun h => ?_⟩
      · show (if v1 < v2 then _ else _) = _
        rw [if_pos h, repointPlan_eq hy]
      · show (if v1 < v2 then _ else _) = _
        rw [if_neg (by omega), repointPlan_eq hx]
    | backRef can =>
      obtain ⟨hc, fwd, hf, hm⟩ := hw.back v2 can hy
      simp only
      refine ⟨fun h => ?_, fun h => ?_, fun h => ?_⟩
      · rw [h] at hx; rw [hx] at hf; cases hf
      · show (if v1 > can then _ else _) = _
        rw [if_neg (by omega), if_pos h, get_ok hf]
        show assertThen _ _ = _
        unfold assertThen
        have hne := (hw.fwd can fwd hf).1
        have h3 : Alias.isCanonicalNonempty (.canonical fwd) = true := by
          unfold Alias.isCanonicalNonempty
          cases fwd with
          | nil => exact absurd rfl hne
          | cons => rfl
        rw [if_pos h3]
        have h4 : (!Alias.containsFwdRef (w v1 v2) (.canonical fwd)) = true := by
          rw [containsFwdRef_eq]
          have := hok can fwd hx hy hf h
          have h5 : decide (w v1 v2 ∈ (Alias.canonical fwd).fwdRefs) = false := decide_eq_false this
          rw [h5]
          rfl
        rw [if_pos h4]
      · show (if v1 > can then _ else _) = _
        rw [if_pos h, repointPlan_eq hx]
    | canonical fwd =>
      simp only
      refine ⟨fun h => absurd h hv, fun h => ?_, fun h => ?_⟩
      · show (if v1 < v2 then _ else _) = _
        rw [if_pos h]
        unfold assertThen
        rw [if_pos]
        rw [containsFwdRef_eq]
        rw [Bool.not_eq_true']
        apply decide_eq_false
        intro hm
        have := (hw.fwd v2 fwd hy).2.2 v1 hm
        rw [hx] at this
        cases this
      · show (if v1 < v2 then _ else _) = _
        rw [if_neg (by omega), repointPlan_eq hx]
  | backRef can =>
    obtain ⟨hc, fwd, hf, hm⟩ := hw.back v1 can hx
    cases y with
    | ground =>
      simp only
      refine ⟨fun h => ?_, fun h => ?_, fun h => ?_⟩
      · rw [← h] at hy; rw [hy] at hf; cases hf
      · show (if v2 > can then _ else _) = _
        rw [if_pos h, repointPlan_eq hy]
      · show (if v2 > can then _ else _) = _
        rw [if_neg (by omega), if_pos h, get_ok hf]
        show assertThen _ _ = _
        unfold assertThen
        have hne := (hw.fwd can fwd hf).1
        have h3 : Alias.isCanonicalNonempty (.canonical fwd) = true := by
          unfold Alias.isCanonicalNonempty
          cases fwd with
          | nil => exact absurd rfl hne
          | cons => rfl
        rw [if_pos h3, if_pos]
        rw [containsFwdRef_eq]
        rw [Bool.not_eq_true']
        apply decide_eq_false
        intro hm
        have := (hw.fwd can fwd hf).2.2 v2 hm
        rw [hy] at this
        cases this
    | backRef can2 =>
      obtain ⟨hc2, fwd2, hf2, hm2⟩ := hw.back v2 can2 hy
      simp only
      refine ⟨fun h => ?_, fun h => ?_, fun h => ?_⟩
      · subst h
        refine ⟨can, lt_of_get hf, ?_⟩
        show (if can < can then _ else _) = _
        rw [if_neg (Nat.lt_irrefl _), if_neg (Nat.lt_irrefl _), get_ok hf]
        show assertThen _ _ = _
        unfold assertThen
        rw [hf] at hf2
        cases hf2
        have e1 : Alias.containsFwdRef v1 (.canonical fwd) = true := decide_eq_true hm
        have e2 : Alias.containsFwdRef v2 (.canonical fwd) = true := decide_eq_true hm2
        rw [if_pos e1, if_pos e2]
      · show (if can < can2 then _ else _) = _
        rw [if_pos h]
      · show (if can < can2 then _ else _) = _
        rw [if_neg (by omega), if_pos h]
    | canonical fwd2 =>
      simp only
      show (_ → ∃ ix, _ ∧ pairBackCanonical t v1 can v2 fwd2 = _) ∧ (_ → pairBackCanonical t v1 can v2 fwd2 = _) ∧
        (_ → pairBackCanonical t v1 can v2 fwd2 = _)
      unfold pairBackCanonical
      by_cases hcv : can = v2
      · subst hcv
        rw [hf] at hy
        cases hy
        rw [decide_eq_true hm, decide_eq_true rfl]
        exact ⟨fun _ => ⟨can, lt_of_get hf, rfl⟩, fun h => absurd h (Nat.lt_irrefl _),
          fun h => absurd h (Nat.lt_irrefl _)⟩
      · have hn : v1 ∉ fwd2 := fun h => by
          have := (hw.fwd v2 fwd2 hy).2.2 v1 h
          rw [hx] at this
          cases this
          exact hcv rfl
        rw [decide_eq_false hn, decide_eq_false hcv]
        refine ⟨fun h => absurd h hcv, fun h => ?_, fun h => ?_⟩
        · show (if can < v2 then _ else _) = _
          rw [if_pos h]
        · show (if can < v2 then _ else _) = _
          rw [if_neg (by omega)]
  | canonical fwd =>
    cases y with
    | ground =>
      simp only
      refine ⟨fun h => absurd h hv, fun h => ?_, fun h => ?_⟩
      · show (if v2 < v1 then _ else _) = _
        rw [if_neg (by omega), repointPlan_eq hy]
      · show (if v2 < v1 then _ else _) = _
        rw [if_pos h]
        unfold assertThen
        rw [if_pos]
        rw [containsFwdRef_eq]
        rw [Bool.not_eq_true']
        apply decide_eq_false
        intro hm
        have := (hw.fwd v1 fwd hx).2.2 v2 hm
        rw [hy] at this
        cases this
    | backRef can =>
      obtain ⟨hc, fwd2, hf, hm⟩ := hw.back v2 can hy
      simp only
      show (_ → ∃ ix, _ ∧ pairBackCanonical t v2 can v1 fwd = _) ∧ (_ → pairBackCanonical t v2 can v1 fwd = _) ∧
        (_ → pairBackCanonical t v2 can v1 fwd = _)
      unfold pairBackCanonical
      by_cases hcv : can = v1
      · subst hcv
        rw [hf] at hx
        cases hx
        rw [decide_eq_true hm, decide_eq_true rfl]
        exact ⟨fun _ => ⟨can, lt_of_get hf, rfl⟩, fun h => absurd h (Nat.lt_irrefl _),
          fun h => absurd h (Nat.lt_irrefl _)⟩
      · have hn : v2 ∉ fwd := fun h => by
          have := (hw.fwd v1 fwd hx).2.2 v2 h
          rw [hy] at this
          cases this
          exact hcv rfl
        rw [decide_eq_false hn, decide_eq_false hcv]
        refine ⟨fun h => absurd h.symm hcv, fun h => ?_, fun h => ?_⟩
        · show (if can < v1 then _ else _) = _
          rw [if_neg (by omega)]
        · show (if can < v1 then _ else _) = _
          rw [if_pos h]
    | canonical fwd2 =>
      simp only
      refine ⟨fun h => absurd h hv, fun h => ?_, fun h => ?_⟩
      · show (if v1 < v2 then _ else _) = _
        rw [if_pos h]
      · show (if v1 < v2 then _ else _) = _
        rw [if_neg (by omega)]

/-- the effect of a unification of two variables on the table of aliases -/
theorem pair_spec {w : Nat → Nat → Nat} {t : Aliases} (hw : WF t) {v1 v2 : Nat} (h1 : v1 < t.length)
    (h2 : v2 < t.length)
    (hok : ∀ can fwd, t[v1]? = some Alias.ground → t[v2]? = some (Alias.backRef can) → t[can]? = some (Alias.canonical fwd) →
      v1 < can → w v1 v2 ∉ fwd) :
    ∃ plan t', t.pair w v1 v2 = .ok (plan, t') ∧ t'.length = t.length ∧ WF t' ∧
      (∀ v, root t' v = if root t v = max (root t v1) (root t v2) then min (root t v1) (root t v2) else root t v) ∧
      (∀ i, root t i ≠ root t v1 → root t i ≠ root t v2 → t'[i]? = t[i]?) ∧
      ((root t v1 = root t v2 ∧ t' = t ∧ ∃ ix, ix < t.length ∧ plan = .same ix) ∨
       (root t v1 ≠ root t v2 ∧ plan = .transfer (min (root t v1) (root t v2)) (max (root t v1) (root t v2)))) := by
  obtain ⟨hs, hl, hg⟩ := pair_eq (w := w) hw h1 h2 hok
  rcases Nat.lt_trichotomy (root t v1) (root t v2) with h | h | h
  · obtain ⟨t', e, l, w', r, o⟩ := recanonicalize_spec hw h (Nat.lt_of_le_of_lt (root_le hw v2) h2)
      (root_root hw v1) (root_root hw v2)
    refine ⟨_, t', by rw [hl h]; unfold recanonPlan; rw [e]; rfl, l, w', fun v => ?_, o, .inr ⟨by omega, ?_⟩⟩
    · rw [r, Nat.max_eq_right (by omega), Nat.min_eq_left (by omega)]
    · rw [Nat.max_eq_right (by omega), Nat.min_eq_left (by omega)]
  · obtain ⟨ix, hix, e⟩ := hs h
    refine ⟨_, t, e, rfl, hw, fun v => ?_, fun _ _ _ => rfl, .inl ⟨h, rfl, ix, hix, rfl⟩⟩
    rw [h, Nat.max_self, Nat.min_self]
    split
    · rename_i h3; exact h3
    · rfl
  · obtain ⟨t', e, l, w', r, o⟩ := recanonicalize_spec hw h (Nat.lt_of_le_of_lt (root_le hw v1) h1)
      (root_root hw v2) (root_root hw v1)
    refine ⟨_, t', by rw [hg h]; unfold recanonPlan; rw [e]; rfl, l, w', fun v => ?_,
      fun i a b => o i b a, .inr ⟨by omega, ?_⟩⟩
    · rw [r, Nat.max_eq_left (by omega), Nat.min_eq_right (by omega)]
    · rw [Nat.max_eq_left (by omega), Nat.min_eq_right (by omega)]

/-- a fresh variable -/
theorem wf_push {t : Aliases} (hw : WF t) : WF (t ++ [Alias.ground]) := by
  have old : ∀ i a, t[i]? = some a → (t ++ [Alias.ground])[i]? = some a := fun i a h => by
    rw [List.getElem?_append_left (lt_of_get h), h]
  have new : ∀ i a, (t ++ [Alias.ground])[i]? = some a → a ≠ Alias.ground → t[i]? = some a := fun i a h hne => by
    by_cases hi : i < t.length
    · rw [List.getElem?_append_left hi] at h; exact h
    · rw [List.getElem?_append_right (by omega)] at h
      rw [List.getElem?_singleton] at h
      split at h
      · cases h; exact absurd rfl hne
      · cases h
  refine ⟨fun i c h => ?_, fun c f h => ?_⟩
  · obtain ⟨h1, f, h2, h3⟩ := hw.back i c (new i _ h (fun h => by cases h))
    exact ⟨h1, f, old _ _ h2, h3⟩
  · obtain ⟨h1, h2, h3⟩ := hw.fwd c f (new c _ h (fun h => by cases h))
    exact ⟨h1, h2, fun i hi => old _ _ (h3 i hi)⟩

theorem root_push {t : Aliases} (v : Nat) : root (t ++ [Alias.ground]) v = root t v := by
  unfold root
  by_cases hv : v < t.length
  · rw [List.getElem?_append_left hv]
  · rw [List.getElem?_append_right (by omega), List.getElem?_singleton, List.getElem?_eq_none (by omega : t.length ≤ v)]
    split <;> simp_all

theorem wf_nil : WF ([] : Aliases) :=
  ⟨fun i c h => by simp at h, fun c f h => by simp at h⟩

end Aliases
end Tc
end Doodle
