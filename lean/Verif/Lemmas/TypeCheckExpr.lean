import Verif.Lemmas.TypeCheckInfer

/-! What the inference of the type checker establishes about the values of numeric trees and expressions. -/

namespace Doodle
namespace Tc

open Num (MachineRep BitWidth NumRep)

variable {o : Orders} {n : Nat} {δ : Type}

/-! ### numeric trees -/

theorem yields_newNumVar (ho : o.Lists) :
    Yields (newNumVar o n) (fun _ => True) (fun v σ => ∃ r, σ v = .ofMachine r) := by
  unfold newNumVar
  refine (yields_newVar.bind fun v _ => (yields_varC ho (c := .numTree (.z PrimIntSet.any)) trivial).bind fun _ _ =>
    yields_ret).to ?_
  rintro _ σ ⟨v, _, _, ⟨r, h, _⟩, rfl⟩
  exact ⟨r, h⟩

theorem yields_checkNumeric {v : Nat} : Yields (checkVarIsNumeric v) (fun _ => True) (fun _ _ => True) := by
  intro s a s' hg h
  unfold checkVarIsNumeric at h
  rw [TcM.bind_eq_ok] at h
  obtain ⟨can, s1, h1, h⟩ := h
  obtain ⟨_, _, rfl⟩ := getCanonicalVar_eq_ok h1
  rw [TcM.bind_eq_ok] at h
  obtain ⟨c, s2, h2, h⟩ := h
  obtain ⟨_, rfl⟩ := getConstraints_eq_ok.mp h2
  have : s = s' := by
    repeat' split at h
    all_goals first
      | exact (TcM.pure_eq_ok.mp h).2
      | exact (TcM.fail_ne.mp h).elim
      | cases h
  subst this
  exact ⟨trivial, Learns.refl hg⟩

theorem yields_getNumRep {v : Nat} :
    Yields (getVarNumRep v) (fun _ => True) (fun rep σ => ∀ m, rep = .concrete m → σ v = .ofMachine m) := by
  intro s a s' hg h
  unfold getVarNumRep at h
  rw [TcM.bind_eq_ok] at h
  obtain ⟨can, s1, h1, h⟩ := h
  obtain ⟨_, hcan, rfl⟩ := getCanonicalVar_eq_ok h1
  rw [TcM.bind_eq_ok] at h
  obtain ⟨c, s2, h2, h⟩ := h
  obtain ⟨hk, rfl⟩ := getConstraints_eq_ok.mp h2
  replace hk : s.known v = c := known_of_get (by rw [hcan] at hk; exact hk)
  clear h2 h1
  have key : s = s' ∧ ∀ σ m, a = .concrete m → c.Holds σ s.store (σ v) → σ v = .ofMachine m := by
    cases c with
    | indefinite =>
      obtain ⟨rfl, rfl⟩ := TcM.pure_eq_ok.mp h
      exact ⟨rfl, fun σ m e => nomatch e⟩
    | variant id => exact (TcM.fail_ne.mp h).elim
    | invariant c =>
      cases c with
      | equiv t =>
        cases t <;> dsimp only at h <;> try exact (TcM.fail_ne.mp h).elim
        · obtain ⟨rfl, rfl⟩ := TcM.pure_eq_ok.mp h
          exact ⟨rfl, fun σ m e => nomatch e⟩
        · obtain ⟨rfl, rfl⟩ := TcM.pure_eq_ok.mp h
          exact ⟨rfl, fun σ m e => nomatch e⟩
        · cases h
        · rename_i b
          cases b <;> dsimp only at h <;> try exact (TcM.fail_ne.mp h).elim
          rename_i w
          obtain ⟨rfl, rfl⟩ := TcM.pure_eq_ok.mp h
          refine ⟨rfl, fun σ m e hh => ?_⟩
          cases e
          rcases hh with hh | hh | hh
          · cases hh
          · cases hh
          · exact hh
        · rename_i r
          obtain ⟨rfl, rfl⟩ := TcM.pure_eq_ok.mp h
          refine ⟨rfl, fun σ m e hh => ?_⟩
          cases e
          rcases hh with hh | hh | hh
          · cases hh
          · cases hh
          · exact hh
      | elem bs =>
        cases bs with
        | single b =>
          cases b <;> dsimp only at h <;> try exact (TcM.fail_ne.mp h).elim
          rename_i w
          obtain ⟨rfl, rfl⟩ := TcM.pure_eq_ok.mp h
          refine ⟨rfl, fun σ m e hh => ?_⟩
          cases e
          have := (baseset_toConstraint (σ := σ) (.single (.num w)) (σ v)).mpr hh
          exact (UConstraint.holds_equiv (t := .base (.num w)) trivial).mp this
        | u us =>
          dsimp only at h
          cases hs : Ranks.asSingleton us with
          | none =>
            rw [hs] at h
            dsimp only at h
            split at h
            · exact (TcM.fail_ne.mp h).elim
            · obtain ⟨rfl, rfl⟩ := TcM.pure_eq_ok.mp h
              exact ⟨rfl, fun σ m e => nomatch e⟩
          | some i =>
            rw [hs] at h
            obtain ⟨rfl, rfl⟩ := TcM.pure_eq_ok.mp h
            refine ⟨rfl, fun σ m e hh => ?_⟩
            cases e
            have := (baseset_toConstraint (σ := σ) (.u us) (σ v)).mpr hh
            unfold BaseSet.toConstraint at this
            simp only [hs] at this
            exact (UConstraint.holds_equiv (t := .base (.num (uintAt i))) trivial).mp this
      | proj p => exact (TcM.fail_ne.mp h).elim
      | numTree is =>
        cases is with
        | single r =>
          dsimp only at h
          obtain ⟨rfl, rfl⟩ := TcM.pure_eq_ok.mp h
          refine ⟨rfl, fun σ m e hh => ?_⟩
          cases e
          have := (intset_toConstraint (σ := σ) (.single r) (σ v)).mpr hh
          exact (UConstraint.holds_equiv (t := .int r) trivial).mp this
        | z us =>
          dsimp only at h
          cases hs : Ranks.asSingleton us with
          | none =>
            rw [hs] at h
            dsimp only at h
            split at h
            · exact (TcM.fail_ne.mp h).elim
            · obtain ⟨rfl, rfl⟩ := TcM.pure_eq_ok.mp h
              exact ⟨rfl, fun σ m e => nomatch e⟩
          | some i =>
            rw [hs] at h
            obtain ⟨rfl, rfl⟩ := TcM.pure_eq_ok.mp h
            refine ⟨rfl, fun σ m e hh => ?_⟩
            cases e
            have := (intset_toConstraint (σ := σ) (.z us) (σ v)).mpr hh
            unfold IntSet.toConstraint at this
            simp only [hs] at this
            exact (UConstraint.holds_equiv (t := .int (primAt i)) trivial).mp this
  obtain ⟨rfl, key⟩ := key
  refine ⟨trivial, (Learns.refl hg).weaken fun σ hσ _ _ m e => key σ m e ?_⟩
  have := hσ.holds v
  rwa [hk] at this

theorem yields_rep (ho : o.Lists) {v : Nat} {m : MachineRep} :
    Yields (unifyVarRep o n v (.concrete m)) (fun _ => True) (fun _ σ => σ v = .ofMachine m) := by
  simp only [unifyVarRep]
  exact (yields_varU ho (t := .int m) trivial).to fun _ _ h => h

/-- what is known of the representation found for a numeric tree -/
def RepOk (σ : Assignment) (x : Nat × NumRep) : Prop := ∀ m, x.2 = .concrete m → σ x.1 = .ofMachine m

theorem yields_binOp (ho : o.Lists) {this : Nat} {cast : Option MachineRep} {l r : Nat × NumRep} :
    Yields (inferBinOp o n this cast l r) (fun _ => True) (fun rep σ => RepOk σ l → RepOk σ r →
      RepOk σ (this, rep) ∧ (∀ m, cast = some m → σ this = .ofMachine m) ∧
      (cast = none → σ this = σ l.1 ∧ σ this = σ r.1)) := by
  obtain ⟨l, lr⟩ := l
  obtain ⟨r, rr⟩ := r
  cases lr with
  | auto =>
    cases rr with
    | auto =>
      cases cast with
      | none =>
        refine ((yields_pair ho).bind fun _ _ => (yields_pair ho).bind fun _ _ => yields_ret).to ?_
        rintro _ σ ⟨_, h1, _, h2, rfl⟩ hl hr
        exact ⟨fun m e => (nomatch e), fun m e => (nomatch e), fun _ => ⟨h1, h2⟩⟩
      | some m =>
        refine ((yields_pair ho).bind fun _ _ => (yields_pair ho).bind fun _ _ => (yields_rep ho).bind fun _ _ =>
          yields_ret).to ?_
        rintro _ σ ⟨_, h1, _, h2, _, h3, rfl⟩ hl hr
        exact ⟨fun m e => (by cases e; exact h3), fun m e => (by cases e; exact h3), fun e => (nomatch e)⟩
    | concrete b =>
      cases cast with
      | none =>
        refine ((yields_rep ho).bind fun _ _ => (yields_rep ho).bind fun _ _ => yields_ret).to ?_
        rintro _ σ ⟨_, h1, _, h2, rfl⟩ hl hr
        exact ⟨fun m e => (by cases e; exact h1), fun m e => (nomatch e), fun _ => ⟨h1.trans h2.symm, h1.trans (hr b rfl).symm⟩⟩
      | some m =>
        refine ((yields_rep ho).bind fun _ _ => (yields_pair ho).bind fun _ _ => yields_ret).to ?_
        rintro _ σ ⟨_, h3, _, h2, rfl⟩ hl hr
        exact ⟨fun m e => (by cases e; exact h3), fun m e => (by cases e; exact h3), fun e => (nomatch e)⟩
  | concrete a =>
    cases rr with
    | auto =>
      cases cast with
      | none =>
        refine ((yields_rep ho).bind fun _ _ => (yields_rep ho).bind fun _ _ => yields_ret).to ?_
        rintro _ σ ⟨_, h1, _, h2, rfl⟩ hl hr
        exact ⟨fun m e => (by cases e; exact h1), fun m e => (nomatch e), fun _ => ⟨h1.trans (hl a rfl).symm, h1.trans h2.symm⟩⟩
      | some m =>
        refine ((yields_rep ho).bind fun _ _ => (yields_pair ho).bind fun _ _ => yields_ret).to ?_
        rintro _ σ ⟨_, h3, _, h2, rfl⟩ hl hr
        exact ⟨fun m e => (by cases e; exact h3), fun m e => (by cases e; exact h3), fun e => (nomatch e)⟩
    | concrete b =>
      unfold inferBinOp
      dsimp only
      cases cast with
      | none =>
        split
        · rename_i e
          subst e
          refine ((yields_rep ho).bind fun _ _ => yields_ret).to ?_
          rintro _ σ ⟨_, h1, rfl⟩ hl hr
          exact ⟨fun m e => (by cases e; exact h1), fun m e => (nomatch e),
            fun _ => ⟨h1.trans (hl a rfl).symm, h1.trans (hr a rfl).symm⟩⟩
        · exact yields_fail
      | some m =>
        split <;>
        · refine ((yields_rep ho).bind fun _ _ => yields_ret).to ?_
          rintro _ σ ⟨_, h3, rfl⟩ hl hr
          exact ⟨fun m e => (by cases e; exact h3), fun m e => (by cases e; exact h3), fun e => (nomatch e)⟩

theorem yields_unaryOp (ho : o.Lists) {this : Nat} {cast : Option MachineRep} {r : Nat × NumRep} :
    Yields (inferUnaryOp o n this cast r) (fun _ => True) (fun rep σ => RepOk σ r →
      RepOk σ (this, rep) ∧ (∀ m, cast = some m → σ this = .ofMachine m) ∧ (cast = none → σ this = σ r.1)) := by
  obtain ⟨r, rr⟩ := r
  cases rr with
  | auto =>
    cases cast with
    | none =>
      refine ((yields_pair ho).bind fun _ _ => yields_ret).to ?_
      rintro _ σ ⟨_, h2, rfl⟩ hr
      exact ⟨fun m e => (nomatch e), fun m e => (nomatch e), fun _ => h2⟩
    | some m =>
      refine ((yields_pair ho).bind fun _ _ => (yields_rep ho).bind fun _ _ => yields_ret).to ?_
      rintro _ σ ⟨_, h2, _, h3, rfl⟩ hr
      exact ⟨fun m e => (by cases e; exact h3), fun m e => (by cases e; exact h3), fun e => (nomatch e)⟩
  | concrete a =>
    cases cast with
    | none =>
      refine ((yields_rep ho).bind fun _ _ => yields_ret).to ?_
      rintro _ σ ⟨_, h1, rfl⟩ hr
      exact ⟨fun m e => (by cases e; exact h1), fun m e => (nomatch e), fun _ => h1.trans (hr a rfl).symm⟩
    | some m =>
      refine ((yields_rep ho).bind fun _ _ => yields_ret).to ?_
      rintro _ σ ⟨_, h3, rfl⟩ hr
      exact ⟨fun m e => (by cases e; exact h3), fun m e => (by cases e; exact h3), fun e => (nomatch e)⟩

/-- what inference establishes about a numeric tree -/
def NumSound (δ : Type) (K : Slack) (σ : Assignment) (sc : UScope) (e : Num.Expr) (x : Nat × NumRep) : Prop :=
  (∃ r, σ x.1 = .ofMachine r) ∧ RepOk σ x ∧ ((K.wide = true ∨ e.Tame) →
    ∀ (s : Scope δ) c, sc.Agrees K σ s → e.eval s.numLookup = .ok c → c.Fits K (σ x.1))

open Num in
theorem fits_wide {K : Slack} (hw : K.wide = true) {c d : TypedConst} {t : ValueType} (h : c.Fits K t)
    (hr : d.rep = c.rep) : d.Fits K t := by
  rcases fits_rep.mp h with ⟨e1, n1⟩ | ⟨m, e1, n1, _⟩
  · exact fits_rep.mpr (Or.inl ⟨hr.trans e1, n1⟩)
  · exact fits_rep.mpr (Or.inr ⟨m, hr.trans e1, n1, Or.inl hw⟩)

open Num in
theorem yields_num (ho : o.Lists) {K : Slack} (sc : UScope) : ∀ (e : Num.Expr),
    Yields (inferNum o n sc e) (fun _ => True) (fun x σ => NumSound δ K σ sc e x)
  | .numVar name => by
    simp only [inferNum]
    cases hsc : sc.get name with
    | none => exact ((yields_newNumVar ho).bind fun v _ => yields_fail (P := fun _ _ => False)).to fun _ _ ⟨_, _, h⟩ => h.elim
    | some w =>
      refine ((yields_newNumVar ho).bind fun v _ => (yields_pair ho).bind fun _ _ => yields_getNumRep.bind fun rep _ =>
        yields_ret).to ?_
      rintro _ σ ⟨v, hr, _, hv, rep, hrep, rfl⟩
      refine ⟨hr, hrep, fun hw s c ha he => ?_⟩
      unfold Num.Expr.eval at he
      obtain ⟨sv, hl, he⟩ := Out.bind_ok he
      simp only [Out.ok.injEq] at he
      subst he
      unfold Scope.numLookup at hl
      cases hx : s.getValue name with
      | none => rw [hx] at hl; simp only [reduceCtorEq] at hl
      | some x =>
        rw [hx] at hl
        simp only at hl
        split at hl <;> simp only [reduceCtorEq, Out.ok.injEq] at hl
        rename_i sv' hsv
        subst hl
        have := ha name w x hsc hx
        rw [← hv] at this
        exact fits_strict this hsv
  | .const c => by
    simp only [inferNum]
    cases hc : c.rep with
    | auto =>
      refine ((yields_newNumVar ho).bind fun v _ => yields_ofPanicky.bind fun is _ =>
        (yields_varC ho (c := .numTree is) trivial).bind fun _ _ => yields_ret).to ?_
      rintro _ σ ⟨v, ⟨r, hr⟩, is, _, _, _, rfl⟩
      refine ⟨⟨r, hr⟩, fun m e => (nomatch e), fun hw s d ha he => ?_⟩
      simp only [Num.Expr.eval, Out.ok.injEq] at he
      subst he
      exact fits_rep.mpr (Or.inl ⟨hc, by rw [hr]; exact ofMachine_numeric r⟩)
    | concrete m =>
      refine ((yields_init ho (t := .int m) trivial id).bind fun v _ => yields_ret).to ?_
      rintro _ σ ⟨v, hr, rfl⟩
      refine ⟨⟨m, hr⟩, fun m e => (by cases e; exact hr), fun hw s d ha he => ?_⟩
      simp only [Num.Expr.eval, Out.ok.injEq] at he
      subst he
      simp only [Num.Expr.Tame, hc] at hw
      exact fits_rep.mpr (Or.inr ⟨m, hc, hr, hw⟩)
  | .binOp op cast l r => by
    simp only [inferNum]
    refine ((yields_newNumVar ho).bind fun v _ => (yields_num (K := K) ho sc l).bind fun x _ => (yields_num (K := K) ho sc r).bind fun y _ =>
      (yields_binOp ho).bind fun rep _ => yields_ret).to ?_
    rintro _ σ ⟨v, hr, x, hx, y, hy, rep, hb, rfl⟩
    obtain ⟨h1, h2, h3⟩ := hb hx.2.1 hy.2.1
    refine ⟨hr, h1, fun hw s c ha he => ?_⟩
    replace hw : K.wide = true := by rcases hw with hw | hw; exact hw; simp only [Num.Expr.Tame] at hw
    unfold Num.Expr.eval at he
    obtain ⟨a, hea, he⟩ := Out.bind_ok he
    obtain ⟨b, heb, he⟩ := Out.bind_ok he
    unfold evalBinOp at he
    obtain ⟨raw, _, he⟩ := Out.bind_ok he
    cases cast with
    | some m =>
      simp only [Out.ok.injEq] at he
      subst he
      exact fits_rep.mpr (Or.inr ⟨m, rfl, h2 m rfl, Or.inl hw⟩)
    | none =>
      obtain ⟨h4, h5⟩ := h3 rfl
      have f1 := hx.2.2 (Or.inl hw) s a ha hea
      have f2 := hy.2.2 (Or.inl hw) s b ha heb
      simp only at he
      split at he
      · simp only [Out.ok.injEq] at he
        subst he
        dsimp only; rw [h4]; exact fits_wide hw f1 rfl
      · split at he
        · simp only [Out.ok.injEq] at he
          subst he
          dsimp only; rw [h5]; exact fits_wide hw f2 rfl
        · simp only [reduceCtorEq] at he
  | .unaryOp op cast e => by
    simp only [inferNum]
    refine ((yields_newNumVar ho).bind fun v _ => (yields_num (K := K) ho sc e).bind fun x _ =>
      (yields_unaryOp ho).bind fun rep _ => yields_ret).to ?_
    rintro _ σ ⟨v, hr, x, hx, rep, hb, rfl⟩
    obtain ⟨h1, h2, h3⟩ := hb hx.2.1
    refine ⟨hr, h1, fun hw s c ha he => ?_⟩
    replace hw : K.wide = true := by rcases hw with hw | hw; exact hw; simp only [Num.Expr.Tame] at hw
    unfold Num.Expr.eval at he
    obtain ⟨a, hea, he⟩ := Out.bind_ok he
    unfold evalUnaryOp at he
    cases cast with
    | some m =>
      refine fits_rep.mpr (Or.inr ⟨m, ?_, h2 m rfl, Or.inl hw⟩)
      cases op <;> simp only [Out.ok.injEq] at he <;> subst he <;> rfl
    | none =>
      have f1 := hx.2.2 (Or.inl hw) s a ha hea
      dsimp only; rw [h3 rfl]
      refine fits_wide hw f1 ?_
      cases op <;> simp only [Out.ok.injEq] at he <;> subst he <;> rfl
  | .cast m bw e => by
    have fin : ∀ (v : Nat) (σ : Assignment), σ v = .ofMachine m → NumSound δ K σ sc (.cast m bw e) (v, .concrete m) := by
      intro v σ hv
      refine ⟨⟨m, hv⟩, fun m e => (by cases e; exact hv), fun hw s c ha he => ?_⟩
      replace hw : K.wide = true := by rcases hw with hw | hw; exact hw; simp only [Num.Expr.Tame] at hw
      unfold Num.Expr.eval at he
      obtain ⟨a, hea, he⟩ := Out.bind_ok he
      unfold evalCast at he
      refine fits_rep.mpr (Or.inr ⟨m, ?_, hv, Or.inl hw⟩)
      split at he
      · split at he <;> simp only [Out.ok.injEq, reduceCtorEq] at he
        subst he; rfl
      · simp only [Out.ok.injEq] at he; subst he; rfl
    simp only [inferNum]
    refine ((yields_newNumVar ho).bind fun v _ => (yields_num (K := K) ho sc e).bind
      (Q := fun x r σ => r = (v, NumRep.concrete m) ∧ σ v = .ofMachine m) fun x _ => ?_).to ?_
    · obtain ⟨w, rep⟩ := x
      cases rep with
      | auto =>
        refine ((yields_rep ho).bind fun _ _ => (yields_rep ho).bind fun _ _ => yields_ret).to ?_
        rintro _ σ ⟨_, _, _, h, rfl⟩
        exact ⟨rfl, h⟩
      | concrete m' =>
        refine ((yields_rep ho).bind fun _ _ => yields_ret).to ?_
        rintro _ σ ⟨_, h, rfl⟩
        exact ⟨rfl, h⟩
    · rintro _ σ ⟨v, _, x, _, rfl, h⟩
      exact fin v σ h

end Tc
end Doodle
