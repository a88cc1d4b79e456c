import Verif.Lemmas.Inference

/-! Lemmas on reading off the solutions of the inference engine. -/

namespace Doodle
namespace Tc
namespace Engine

open Num (MachineRep NumRep)
open Aliases (root WF)
open TypingSpec

/-- the constraint on the class of a variable -/
def classC (g : Engine) (v : Nat) (t : MachineRep) : Prop :=
  ∀ c, g.constraints[g.rt v]? = some (some c) → satC c t

theorem mem_all (t : MachineRep) : t ∈ (List.finRange 8).map primAt := by
  obtain ⟨s, w⟩ := t
  cases s <;> cases w <;> decide

theorem all_nodup : ((List.finRange 8).map primAt).Nodup := by decide

theorem solutionsLoop_eq (b : Num.Bounds) : ∀ ts, solutionsLoop b ts =
    .ok (ts.filter fun t => decide (t.asBounds.min ≤ b.min) && decide (b.max ≤ t.asBounds.max))
  | [] => rfl
  | t :: ts => by
    unfold solutionsLoop
    rw [fits_eq, solutionsLoop_eq b ts, List.filter_cons]
    rfl

theorem uniqueSolution_spec (b : Num.Bounds) :
    (∃ t, uniqueSolution b = .ok t ∧ satC (.encompasses b) t ∧ ∀ t', satC (.encompasses b) t' → t' = t) ∨
    (∃ x, uniqueSolution b = .err x ∧ ¬ ∃ t, satC (.encompasses b) t ∧ ∀ t', satC (.encompasses b) t' → t' = t) := by
  have hmem : ∀ t, t ∈ ((List.finRange 8).map primAt).filter
      (fun t => decide (t.asBounds.min ≤ b.min) && decide (b.max ≤ t.asBounds.max)) ↔ satC (.encompasses b) t := by
    intro t
    rw [List.mem_filter]
    simp only [Bool.and_eq_true, decide_eq_true_eq, satC]
    exact ⟨fun h => h.2, fun h => ⟨mem_all t, h⟩⟩
  have hnd := all_nodup.filter (fun t => decide (t.asBounds.min ≤ b.min) && decide (b.max ≤ t.asBounds.max))
  unfold uniqueSolution
  rw [solutionsLoop_eq]
  generalize ((List.finRange 8).map primAt).filter
      (fun t => decide (t.asBounds.min ≤ b.min) && decide (b.max ≤ t.asBounds.max)) = l at hmem hnd
  match l, hmem, hnd with
  | [], hmem, _ =>
    refine .inr ⟨_, rfl, ?_⟩
    rintro ⟨t, ht, _⟩
    cases (hmem t).mpr ht
  | [t], hmem, _ =>
    refine .inl ⟨t, rfl, (hmem t).mp (.head _), fun t' ht' => ?_⟩
    exact List.mem_singleton.mp ((hmem t').mpr ht')
  | a :: c :: rest, hmem, hnd =>
    refine .inr ⟨_, rfl, ?_⟩
    rintro ⟨t, _, ht⟩
    have h1 := ht a ((hmem a).mp (.head _))
    have h2 := ht c ((hmem c).mp (.tail _ (.head _)))
    exact (List.pairwise_cons.mp hnd).1 c (.head _) (by rw [h1, h2])

/-- reading off a variable: it works exactly when the class of the variable has one solution -/
theorem typeFromIndex_spec {g : Engine} (hg : Good g) {v : Nat} (hv : v < g.constraints.length) (n : Nat) :
    (∃ t, typeFromIndex (n + 2) g v = .ok t ∧ classC g v t ∧ ∀ t', classC g v t' → t' = t) ∨
    (typeFromIndex (n + 2) g v = .err v ∧ ¬ ∃ t, classC g v t ∧ ∀ t', classC g v t' → t' = t) := by
  have hvl : v < g.aliases.length := by rw [hg.len]; exact hv
  have hrle := Aliases.root_le hg.wf v
  have hrv : g.rt v < g.constraints.length := Nat.lt_of_le_of_lt hrle hv
  have hrl : g.rt v < g.aliases.length := by rw [hg.len]; exact hrv
  have hrr : g.rt (g.rt v) = g.rt v := Aliases.root_root hg.wf v
  obtain ⟨o, ho, hat⟩ := constraintsAt_ok hrv
  have hsub : substitute (n + 1) g (g.rt v) = (g.constraintsAt (g.rt v) >>= fun o => match o with
      | none => .ok none
      | some (.equiv ut) => do
        let t ← toWhnf (n + 1) g ut
        .ok (some t)
      | some (.encompasses b) => .ok (some (.within b))) := by
    unfold substitute
    rw [Aliases.getCanonical_ok hrl]
    show (g.constraintsAt (g.rt (g.rt v)) >>= _) = _
    rw [hrr]
    rfl
  have hre : reifyErr (n + 2) g (.var v) = (substitute (n + 1) g (g.rt v) >>= fun o => match o with
      | some (.int t) => .ok t
      | some (.within b) => uniqueSolution b
      | some (.abstract ut) => reifyErr (n + 1) g ut
      | none => .err (.unconstrainedVar (g.rt v))) := by
    rw [show n + 2 = (n + 1) + 1 from rfl, reifyErr, Aliases.getCanonical_ok hvl]
    rfl
  rw [hsub, hat] at hre
  have hcl : ∀ t, classC g v t ↔ ∀ c, o = some c → satC c t := by
    intro t
    unfold classC
    rw [ho]
    simp
  simp only [hcl]
  unfold typeFromIndex
  rw [hre]
  cases o with
  | none =>
    refine .inr ⟨rfl, ?_⟩
    rintro ⟨t, _, h⟩
    have h1 := h Num.U8 (fun c hc => by cases hc)
    have h2 := h Num.U16 (fun c hc => by cases hc)
    rw [← h1] at h2
    cases h2
  | some c =>
    have hs := hg.simple _ _ hrr ho
    cases c with
    | equiv ut =>
      cases ut with
      | var w => exact absurd hs id
      | int t =>
        refine .inl ⟨t, rfl, fun c hc => (by cases hc; rfl), fun t' h => h _ rfl⟩
    | encompasses b =>
      have hb : (Outcome.ok (some (Constraint.encompasses b)) >>= fun o => (match o with
          | none => .ok none
          | some (.equiv ut) => do
            let t ← toWhnf (n + 1) g ut
            .ok (some t)
          | some (.encompasses b) => .ok (some (.within b)) : Outcome InferenceError (Option NVType))) =
          .ok (some (.within b)) := rfl
      rw [hb]
      simp only [Outcome.bind_ok]
      rcases uniqueSolution_spec b with ⟨t, e, h1, h2⟩ | ⟨x, e, h⟩
      · rw [e]
        exact .inl ⟨t, rfl, fun c hc => (by cases hc; exact h1), fun t' h => h2 t' (h _ rfl)⟩
      · rw [e]
        refine .inr ⟨rfl, ?_⟩
        rintro ⟨t, h1, h2⟩
        exact h ⟨t, h1 _ rfl, fun t' ht => h2 t' (fun c hc => by cases hc; exact ht)⟩

/-! ### trees and assignments -/

/-- the tree with the types of an assignment, the nodes numbered in pre-order -/
def annot (ρ : Asg) : Num.Expr → Nat → TypedExpr
  | .const c, ix => .const (ρ ix) c
  | .binOp op o l r, ix =>
    .binOp (ρ ix) ((ρ (ix + 1), ρ (ix + 1 + size l)), ρ ix) op o (annot ρ l (ix + 1)) (annot ρ r (ix + 1 + size l))
  | .unaryOp op o e, ix => .unaryOp (ρ ix) (ρ (ix + 1), ρ ix) op o (annot ρ e (ix + 1))
  | .cast t b e, ix => .cast (ρ ix) (ρ (ix + 1), ρ ix) t b (annot ρ e (ix + 1))
  | .numVar l, ix => .numVar (ρ ix) l

theorem annot_getType (ρ : Asg) (e : Num.Expr) (ix : Nat) : (annot ρ e ix).getType = ρ ix := by
  cases e <;> rfl

theorem annot_toExpr (ρ : Asg) : ∀ (e : Num.Expr) (ix : Nat), (annot ρ e ix).toExpr = e
  | .const _, _ => rfl
  | .numVar _, _ => rfl
  | .binOp op o l r, ix => by
    simp only [annot, TypedExpr.toExpr, annot_toExpr ρ l, annot_toExpr ρ r]
  | .unaryOp op o e, ix => by simp only [annot, TypedExpr.toExpr, annot_toExpr ρ e]
  | .cast t b e, ix => by simp only [annot, TypedExpr.toExpr, annot_toExpr ρ e]

theorem annot_congr {ρ ρ' : Asg} : ∀ (e : Num.Expr) (ix : Nat), (∀ v, ix ≤ v → v < ix + size e → ρ v = ρ' v) →
    annot ρ e ix = annot ρ' e ix
  | .const _, ix, h => by
    simp only [annot]; rw [h ix (Nat.le_refl _) (by simp [size])]
  | .numVar _, ix, h => by
    simp only [annot]; rw [h ix (Nat.le_refl _) (by simp [size])]
  | .binOp op o l r, ix, h => by
    have hl := size_pos l
    have hr := size_pos r
    simp only [size] at h
    simp only [annot]
    rw [annot_congr l (ix + 1) fun v h1 h2 => h v (by omega) (by omega),
      annot_congr r (ix + 1 + size l) fun v h1 h2 => h v (by omega) (by omega),
      h ix (by omega) (by omega), h (ix + 1) (by omega) (by omega), h (ix + 1 + size l) (by omega) (by omega)]
  | .unaryOp op o e, ix, h => by
    have hl := size_pos e
    simp only [size] at h
    simp only [annot]
    rw [annot_congr e (ix + 1) fun v h1 h2 => h v (by omega) (by omega),
      h ix (by omega) (by omega), h (ix + 1) (by omega) (by omega)]
  | .cast t b e, ix, h => by
    have hl := size_pos e
    simp only [size] at h
    simp only [annot]
    rw [annot_congr e (ix + 1) fun v h1 h2 => h v (by omega) (by omega),
      h ix (by omega) (by omega), h (ix + 1) (by omega) (by omega)]

/-- the tree determines the assignment on its nodes -/
theorem annot_inj {ρ ρ' : Asg} : ∀ (e : Num.Expr) (ix : Nat), annot ρ e ix = annot ρ' e ix →
    ∀ v, ix ≤ v → v < ix + size e → ρ v = ρ' v
  | .const _, ix, h, v, h1, h2 => by
    simp only [size] at h2
    have : v = ix := by omega
    subst this
    simp only [annot, TypedExpr.const.injEq, TypedExpr.numVar.injEq] at h
    exact h.1
  | .numVar _, ix, h, v, h1, h2 => by
    simp only [size] at h2
    have : v = ix := by omega
    subst this
    simp only [annot, TypedExpr.const.injEq, TypedExpr.numVar.injEq] at h
    exact h.1
  | .binOp op o l r, ix, h, v, h1, h2 => by
    simp only [size] at h2
    simp only [annot, TypedExpr.binOp.injEq] at h
    obtain ⟨a, _, _, _, b, c⟩ := h
    by_cases e1 : v = ix
    · rw [e1]; exact a
    by_cases e2 : v < ix + 1 + size l
    · exact annot_inj l (ix + 1) b v (by omega) (by omega)
    · exact annot_inj r _ c v (by omega) (by omega)
  | .unaryOp op o e, ix, h, v, h1, h2 => by
    simp only [size] at h2
    simp only [annot, TypedExpr.unaryOp.injEq] at h
    obtain ⟨a, _, _, _, b⟩ := h
    by_cases e1 : v = ix
    · rw [e1]; exact a
    · exact annot_inj e (ix + 1) b v (by omega) (by omega)
  | .cast t b e, ix, h, v, h1, h2 => by
    simp only [size] at h2
    simp only [annot, TypedExpr.cast.injEq] at h
    obtain ⟨a, _, _, _, b⟩ := h
    by_cases e1 : v = ix
    · rw [e1]; exact a
    · exact annot_inj e (ix + 1) b v (by omega) (by omega)

theorem holds_iff' (p : MachineRep) (v : Int) : Holds p v ↔ p.asBounds.min ≤ v ∧ v ≤ p.asBounds.max := by
  obtain ⟨s, w⟩ := p
  cases s <;> cases w <;> simp [Holds, MachineRep.asBounds, Num.BitWidth.bits] <;> omega

/-- the typing rules, read on assignments -/
theorem typing_annot (ρ : Asg) : ∀ (e : Num.Expr) (ix : Nat), Typing (annot ρ e ix) ↔ Val ρ e ix
  | .const ⟨v, .auto⟩, ix => by
    simp only [annot, Val]
    constructor
    · intro h; cases h with | unnamed h => exact (holds_iff' _ _).mp h
    · intro h; exact .unnamed ((holds_iff' _ _).mpr h)
  | .const ⟨v, .concrete t⟩, ix => by
    simp only [annot, Val]
    constructor
    · generalize hρ : ρ ix = s
      intro h; cases h; rfl
    · intro h; rw [h]; exact .named
  | .numVar l, ix => by
    simp only [annot, Val, iff_false]
    intro h; cases h
  | .binOp op o l r, ix => by
    simp only [annot, Val]
    rw [← typing_annot ρ l, ← typing_annot ρ r]
    have tl := annot_getType ρ l (ix + 1)
    have tr := annot_getType ρ r (ix + 1 + size l)
    have el := annot_toExpr ρ l (ix + 1)
    have er := annot_toExpr ρ r (ix + 1 + size l)
    cases o with
    | none =>
      simp only
      constructor
      · intro h
        generalize hs : ((ρ (ix + 1), ρ (ix + 1 + size l)), ρ ix) = sig at h
        cases h with
        | bin h1 h2 h3 h4 => exact ⟨h1, h2, by rw [← tl, h3], by rw [← tr, h4]⟩
      · rintro ⟨h1, h2, h3, h4⟩
        rw [h3, h4]
        exact .bin h1 h2 (by rw [tl, h3]) (by rw [tr, h4])
    | some t =>
      simp only
      constructor
      · intro h
        generalize hs : ((ρ (ix + 1), ρ (ix + 1 + size l)), ρ ix) = sig at h
        generalize hρ : ρ ix = s at h
        cases h with
        | binTo h1 h2 h3 h4 =>
          rw [el, tl] at h3
          rw [er, tr] at h4
          exact ⟨h1, h2, rfl, h3, h4⟩
      · rintro ⟨h1, h2, h3, h4, h5⟩
        rw [h3, ← tl, ← tr]
        exact .binTo h1 h2 (by rw [el, tl]; exact h4) (by rw [er, tr]; exact h5)
  | .unaryOp op o e, ix => by
    simp only [annot, Val]
    rw [← typing_annot ρ e]
    have te := annot_getType ρ e (ix + 1)
    have ee := annot_toExpr ρ e (ix + 1)
    cases o with
    | none =>
      simp only
      constructor
      · intro h
        generalize hs : (ρ (ix + 1), ρ ix) = sig at h
        cases h with
        | un h1 h2 => exact ⟨h1, by rw [← te, h2]⟩
      · rintro ⟨h1, h2⟩
        rw [h2]
        exact .un h1 (by rw [te, h2])
    | some t =>
      simp only
      constructor
      · intro h
        generalize hs : (ρ (ix + 1), ρ ix) = sig at h
        generalize hρ : ρ ix = s at h
        cases h with
        | unTo h1 h2 =>
          rw [ee, te] at h2
          exact ⟨h1, rfl, h2⟩
      · rintro ⟨h1, h2, h3⟩
        rw [h2, ← te]
        exact .unTo h1 (by rw [ee, te]; exact h3)
  | .cast t b e, ix => by
    simp only [annot, Val]
    rw [← typing_annot ρ e]
    have te := annot_getType ρ e (ix + 1)
    have ee := annot_toExpr ρ e (ix + 1)
    constructor
    · intro h
      generalize hs : (ρ (ix + 1), ρ ix) = sig at h
      generalize hρ : ρ ix = s at h
      cases h with
      | cast h1 h2 =>
        rw [ee, te] at h2
        exact ⟨h1, rfl, h2⟩
    · rintro ⟨h1, h2, h3⟩
      rw [h2, ← te]
      exact .cast h1 (by rw [ee, te]; exact h3)

/-- every well-typed tree comes from an assignment -/
theorem exists_annot : ∀ (t : TypedExpr) (ix : Nat), Typing t → ∃ ρ, annot ρ t.toExpr ix = t
  | .const t c, ix, _ => ⟨fun _ => t, rfl⟩
  | .numVar t l, ix, h => nomatch h
  | .binOp t sig op o l r, ix, h => by
    have ⟨hl, hr, hs⟩ : Typing l ∧ Typing r ∧ sig = ((l.getType, r.getType), t) := by
      cases h with
      | bin h1 h2 h3 h4 => exact ⟨h1, h2, by rw [h3, h4]⟩
      | binTo h1 h2 h3 h4 => exact ⟨h1, h2, rfl⟩
    obtain ⟨ρl, el⟩ := exists_annot l (ix + 1) hl
    obtain ⟨ρr, er⟩ := exists_annot r (ix + 1 + size l.toExpr) hr
    have pl := size_pos l.toExpr
    have hl' := annot_congr (ρ := fun v => if v = ix then t else if v < ix + 1 + size l.toExpr then ρl v else ρr v)
      (ρ' := ρl) l.toExpr (ix + 1) (fun v h1 h2 => by
        rw [if_neg (by omega), if_pos (by omega)])
    have hr' := annot_congr (ρ := fun v => if v = ix then t else if v < ix + 1 + size l.toExpr then ρl v else ρr v)
      (ρ' := ρr) r.toExpr (ix + 1 + size l.toExpr) (fun v h1 h2 => by
        rw [if_neg (by omega), if_neg (by omega)])
    refine ⟨fun v => if v = ix then t else if v < ix + 1 + size l.toExpr then ρl v else ρr v, ?_⟩
    simp only [TypedExpr.toExpr, annot]
    rw [hl', hr', el, er, hs, if_pos trivial, if_neg (by omega), if_pos (by omega), if_neg (by omega), if_neg (by omega)]
    have t1 := annot_getType ρl l.toExpr (ix + 1)
    have t2 := annot_getType ρr r.toExpr (ix + 1 + size l.toExpr)
    rw [el] at t1
    rw [er] at t2
    rw [t1, t2]
  | .unaryOp t sig op o e, ix, h => by
    have ⟨he, hs⟩ : Typing e ∧ sig = (e.getType, t) := by
      cases h with
      | un h1 h2 => exact ⟨h1, by rw [h2]⟩
      | unTo h1 h2 => exact ⟨h1, rfl⟩
    obtain ⟨ρe, ee⟩ := exists_annot e (ix + 1) he
    have hc := annot_congr (ρ := fun v => if v = ix then t else ρe v) (ρ' := ρe) e.toExpr (ix + 1)
      (fun v h1 h2 => by rw [if_neg (by omega)])
    refine ⟨fun v => if v = ix then t else ρe v, ?_⟩
    simp only [TypedExpr.toExpr, annot]
    rw [hc, ee, hs, if_pos trivial, if_neg (by omega)]
    have t1 := annot_getType ρe e.toExpr (ix + 1)
    rw [ee] at t1
    rw [t1]
  | .cast t sig o b e, ix, h => by
    have ⟨he, hs⟩ : Typing e ∧ sig = (e.getType, t) := by
      cases h with
      | cast h1 h2 => exact ⟨h1, rfl⟩
    obtain ⟨ρe, ee⟩ := exists_annot e (ix + 1) he
    have hc := annot_congr (ρ := fun v => if v = ix then t else ρe v) (ρ' := ρe) e.toExpr (ix + 1)
      (fun v h1 h2 => by rw [if_neg (by omega)])
    refine ⟨fun v => if v = ix then t else ρe v, ?_⟩
    simp only [TypedExpr.toExpr, annot]
    rw [hc, ee, hs, if_pos trivial, if_neg (by omega)]
    have t1 := annot_getType ρe e.toExpr (ix + 1)
    rw [ee] at t1
    rw [t1]

/-! ### elaboration -/

/-- reading off a whole tree -/
theorem elaborateExpr_spec (fuel : Nat) (g : Engine) (ρ : Asg) : ∀ (e : Num.Expr) (ix : Nat),
    (∀ v, ix ≤ v → v < ix + size e → typeFromIndex fuel g v = .ok (ρ v) ∨ typeFromIndex fuel g v = .err v) →
    ((∀ v, ix ≤ v → v < ix + size e → typeFromIndex fuel g v = .ok (ρ v)) ∧
      elaborateExpr fuel g e ix = .ok (annot ρ e ix, ix + size e)) ∨
    (∃ v, ix ≤ v ∧ v < ix + size e ∧ typeFromIndex fuel g v = .err v ∧ elaborateExpr fuel g e ix = .err v)
  | .const c, ix, h => by
    simp only [size] at h ⊢
    unfold elaborateExpr
    rcases h ix (Nat.le_refl _) (by omega) with h1 | h1
    · refine .inl ⟨fun v a b => ?_, by rw [h1]; rfl⟩
      have : v = ix := by omega
      rw [this]; exact h1
    · exact .inr ⟨ix, Nat.le_refl _, by omega, h1, by rw [h1]; rfl⟩
  | .numVar l, ix, h => by
    simp only [size] at h ⊢
    unfold elaborateExpr
    rcases h ix (Nat.le_refl _) (by omega) with h1 | h1
    · refine .inl ⟨fun v a b => ?_, by rw [h1]; rfl⟩
      have : v = ix := by omega
      rw [this]; exact h1
    · exact .inr ⟨ix, Nat.le_refl _, by omega, h1, by rw [h1]; rfl⟩
  | .binOp op o l r, ix, h => by
    simp only [size] at h ⊢
    have ihl := elaborateExpr_spec fuel g ρ l (ix + 1) fun v h1 h2 => h v (by omega) (by omega)
    have ihr := elaborateExpr_spec fuel g ρ r (ix + 1 + size l) fun v h1 h2 => h v (by omega) (by omega)
    unfold elaborateExpr
    rcases ihl with ⟨al, el⟩ | ⟨v, a, b, c, el⟩
    · rw [el]
      rcases ihr with ⟨ar, er⟩ | ⟨v, a, b, c, er⟩
      · rcases h ix (Nat.le_refl _) (by omega) with h1 | h1
        · refine .inl ⟨fun v a b => ?_, ?_⟩
          · by_cases e1 : v = ix
            · rw [e1]; exact h1
            by_cases e2 : v < ix + 1 + size l
            · exact al v (by omega) e2
            · exact ar v (by omega) (by omega)
          · show (elaborateExpr fuel g r (ix + 1 + size l) >>= fun ty => typeFromIndex fuel g ix >>= fun t =>
              Outcome.ok (TypedExpr.binOp t (((annot ρ l (ix + 1)).getType, ty.1.getType), t) op o
                (annot ρ l (ix + 1)) ty.1, ty.2)) = _
            rw [er, h1]
            show Outcome.ok (TypedExpr.binOp (ρ ix) (((annot ρ l (ix + 1)).getType,
              (annot ρ r (ix + 1 + size l)).getType), ρ ix) op o
                (annot ρ l (ix + 1)) (annot ρ r (ix + 1 + size l)), ix + 1 + size l + size r) = _
            rw [annot_getType, annot_getType]
            have : ix + 1 + size l + size r = ix + (1 + size l + size r) := by omega
            rw [this]
            rfl
        · refine .inr ⟨ix, Nat.le_refl _, by omega, h1, ?_⟩
          show (elaborateExpr fuel g r (ix + 1 + size l) >>= fun ty => typeFromIndex fuel g ix >>= fun t =>
              Outcome.ok (TypedExpr.binOp t (((annot ρ l (ix + 1)).getType, ty.1.getType), t) op o
                (annot ρ l (ix + 1)) ty.1, ty.2)) = _
          rw [er, h1]
          rfl
      · refine .inr ⟨v, by omega, by omega, c, ?_⟩
        show (elaborateExpr fuel g r (ix + 1 + size l) >>= _) = _
        rw [er]
        rfl
    · exact .inr ⟨v, by omega, by omega, c, by rw [el]; rfl⟩
  | .unaryOp op o e, ix, h => by
    simp only [size] at h ⊢
    have ihl := elaborateExpr_spec fuel g ρ e (ix + 1) fun v h1 h2 => h v (by omega) (by omega)
    unfold elaborateExpr
    rcases ihl with ⟨al, el⟩ | ⟨v, a, b, c, el⟩
    · rw [el]
      rcases h ix (Nat.le_refl _) (by omega) with h1 | h1
      · refine .inl ⟨fun v a b => ?_, ?_⟩
        · by_cases e1 : v = ix
          · rw [e1]; exact h1
          · exact al v (by omega) (by omega)
        · show (typeFromIndex fuel g ix >>= fun t =>
            Outcome.ok (TypedExpr.unaryOp t ((annot ρ e (ix + 1)).getType, t) op o (annot ρ e (ix + 1)),
              ix + 1 + size e)) = _
          rw [h1, annot_getType]
          have : ix + 1 + size e = ix + (1 + size e) := by omega
          rw [this]
          rfl
      · refine .inr ⟨ix, Nat.le_refl _, by omega, h1, ?_⟩
        show (typeFromIndex fuel g ix >>= _) = _
        rw [h1]
        rfl
    · exact .inr ⟨v, by omega, by omega, c, by rw [el]; rfl⟩
  | .cast t b e, ix, h => by
    simp only [size] at h ⊢
    have ihl := elaborateExpr_spec fuel g ρ e (ix + 1) fun v h1 h2 => h v (by omega) (by omega)
    unfold elaborateExpr
    rcases ihl with ⟨al, el⟩ | ⟨v, a, b, c, el⟩
    · rw [el]
      rcases h ix (Nat.le_refl _) (by omega) with h1 | h1
      · refine .inl ⟨fun v a b => ?_, ?_⟩
        · by_cases e1 : v = ix
          · rw [e1]; exact h1
          · exact al v (by omega) (by omega)
        · show (typeFromIndex fuel g ix >>= fun s =>
            Outcome.ok (TypedExpr.cast s ((annot ρ e (ix + 1)).getType, s) t b (annot ρ e (ix + 1)),
              ix + 1 + size e)) = _
          rw [h1, annot_getType]
          have : ix + 1 + size e = ix + (1 + size e) := by omega
          rw [this]
          rfl
      · refine .inr ⟨ix, Nat.le_refl _, by omega, h1, ?_⟩
        show (typeFromIndex fuel g ix >>= _) = _
        rw [h1]
        rfl
    · exact .inr ⟨v, by omega, by omega, c, by rw [el]; rfl⟩

/-! ### the whole -/

theorem good_new : Good new := ⟨Aliases.wf_nil, rfl, fun v c _ h => by simp [new] at h⟩

theorem sat_new (ρ : Asg) : Sat ρ new := ⟨fun v hv => absurd hv (Nat.not_lt_zero v), fun v c _ h => by simp [new] at h⟩

/-- changing the type of a whole class -/
theorem sat_change {g : Engine} (hg : Good g) {ρ : Asg} (h : Sat ρ g) {v : Nat} {t : MachineRep}
    (ht : classC g v t) : Sat (fun w => if g.rt w = g.rt v then t else ρ w) g := by
  refine ⟨fun w hw => ?_, fun w c hw hc => ?_⟩
  · have : g.rt (g.rt w) = g.rt w := Aliases.root_root hg.wf w
    simp only [this]
    rw [h.alias w hw]
  · show satC c (if g.rt w = g.rt v then t else ρ w)
    split
    · rename_i he
      rw [hw] at he
      exact ht c (by rw [← he]; exact hc)
    · exact h.con w c hw hc

theorem Sat.classC {g : Engine} (hg : Good g) {ρ : Asg} (h : Sat ρ g) {v : Nat} (hv : v < g.constraints.length) :
    classC g v (ρ v) := by
  intro c hc
  rw [h.alias v hv]
  exact h.con _ c (Aliases.root_root hg.wf v) hc

/-- elaboration of an expression finds the one way to type it, or reports that there is not exactly one -/
theorem elaborate_spec (n : Nat) (e : Num.Expr) :
    (∃ t, elaborate (n + 4) e = .ok t ∧ Unique t e) ∨
    (∃ x, elaborate (n + 4) e = .err x ∧ ¬ ∃ t, Unique t e) := by
  have hinf := infer_spec n e new good_new
  have toVal : ∀ t, Explains t e → ∃ ρ, annot ρ e 0 = t ∧ Val ρ e 0 := by
    rintro t ⟨h1, h2⟩
    obtain ⟨ρ, hρ⟩ := exists_annot t 0 h2
    rw [h1] at hρ
    exact ⟨ρ, hρ, (typing_annot ρ e 0).mp (by rw [hρ]; exact h2)⟩
  have ofVal : ∀ ρ, Val ρ e 0 → Explains (annot ρ e 0) e := fun ρ h =>
    ⟨annot_toExpr ρ e 0, (typing_annot ρ e 0).mpr h⟩
  rcases hinf with ⟨a, g, he, hi, hs⟩ | ⟨x, he, hn⟩
  · have hlen : g.constraints.length = size e := by
      have := hi.f.len
      rw [this]
      show 0 + size e = _
      omega
    have hgood := hi.f.good
    have hsat : ∀ ρ, Sat ρ g ↔ Val ρ e 0 := fun ρ => by
      rw [hs]
      exact ⟨fun h => h.2, fun h => ⟨sat_new ρ, h⟩⟩
    have hel : elaborate (n + 4) e = (match elaborateExpr (n + 4) g e 0 with
        | .ok t => .ok t.1
        | .err ix => .err (.badReification ix)
        | .panic => .panic
        | .fuel => .fuel) := by
      unfold elaborate
      rw [he]
      rfl
    have hspec : ∀ v, v < size e → _ := fun v hv => typeFromIndex_spec hgood (v := v) (by rw [hlen]; exact hv) (n + 2)
    rcases elaborateExpr_spec (n + 4) g (fun v => match typeFromIndex (n + 4) g v with | .ok t => t | _ => Num.U8) e 0
      (fun v _ hv => by
        rcases hspec v (by omega) with ⟨t, h1, _⟩ | ⟨h1, _⟩
        · left; rw [h1]
        · right; exact h1) with ⟨hall, hok⟩ | ⟨v, _, hv, herr, hok⟩
    · -- all variables have a type
      generalize hρ : (fun v => match typeFromIndex (n + 4) g v with | .ok t => t | _ => Num.U8) = ρ at hall hok
      have hsol : ∀ v, v < size e → classC g v (ρ v) ∧ ∀ t', classC g v t' → t' = ρ v := by
        intro v hv
        rcases hspec v hv with ⟨t, h1, h2, h3⟩ | ⟨h1, _⟩
        · have := hall v (Nat.zero_le v) (by omega)
          have h1' : typeFromIndex (n + 4) g v = .ok t := h1
          have ht : ρ v = t := by rw [← hρ]; simp only [h1']
          rw [ht]
          exact ⟨h2, h3⟩
        · have := hall v (Nat.zero_le v) (by omega)
          rw [h1] at this
          cases this
      have hS : Sat ρ g := by
        refine ⟨fun v hv => ?_, fun v c hv hc => ?_⟩
        · rw [hlen] at hv
          have hr := Nat.lt_of_le_of_lt (Aliases.root_le hgood.wf v) hv
          symm
          apply (hsol v hv).2
          intro c hc
          apply (hsol _ hr).1 c
          have hrr : g.rt (root g.aliases v) = g.rt v := Aliases.root_root hgood.wf v
          rw [hrr]
          exact hc
        · have hv' : v < size e := by
            rw [List.getElem?_eq_some_iff] at hc
            rw [← hlen]; exact hc.1
          apply (hsol v hv').1 c
          rw [hv]; exact hc
      refine .inl ⟨annot ρ e 0, by rw [hel, hok], ofVal ρ ((hsat ρ).mp hS), fun t' ht' => ?_⟩
      obtain ⟨ρ', e', v'⟩ := toVal t' ht'
      rw [← e']
      apply annot_congr
      intro v _ hv
      exact (hsol v (by omega)).2 _ (((hsat ρ').mpr v').classC hgood (by rw [hlen]; omega))
    · -- some variable has not
      refine .inr ⟨.badReification v, by rw [hel, hok], ?_⟩
      rintro ⟨t, ht, hu⟩
      obtain ⟨ρ, e', v'⟩ := toVal t ht
      have hS := (hsat ρ).mpr v'
      have hv0 : v < size e := by omega
      rcases hspec v hv0 with ⟨t, h1, _⟩ | ⟨_, h1⟩
      · rw [h1] at herr; cases herr
      · apply h1
        refine ⟨ρ v, hS.classC hgood (by rw [hlen]; exact hv0), fun t' ht' => ?_⟩
        have hS' := sat_change hgood hS ht'
        have heq := hu _ (ofVal _ ((hsat _).mp hS'))
        rw [← e'] at heq
        have := annot_inj e 0 heq v (Nat.zero_le _) hv
        simpa using this
  · refine .inr ⟨.inference x, by unfold elaborate; rw [he], ?_⟩
    rintro ⟨t, ht, _⟩
    obtain ⟨ρ, _, v'⟩ := toVal t ht
    exact hn ρ (sat_new ρ) v'

end Engine
end Tc
end Doodle
