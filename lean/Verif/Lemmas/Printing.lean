import Verif.Lemmas.Reading
import Verif.Spec.Printing

/-! Lemmas: the numeric printer and the Rust printer produce trees with tight operands. -/

namespace Doodle
namespace Printer

open Prec Reading
open Num (BasicBinOp BasicUnaryOp)

theorem numRules_wf : RulesWF numRules where
  bound := fun o => by rcases o with ⟨op, _⟩; cases op <;> exact Nat.le_of_ble_eq_true rfl
  uniform := fun _ _ _ => rfl

theorem rustRules_wf : RulesWF rustRules where
  bound := fun o => by cases o <;> decide
  uniform := fun o o' => by cases o <;> cases o' <;> decide

theorem num_left (op : BasicBinOp) (rep) (l : Num.Expr) :
    numRules.level ⟨op, rep⟩ + 1 ≤ shown numRules numStyle (ofNum l) (numStyle.bin ⟨op, rep⟩) := by
  cases l with
  | binOp o _ _ _ => cases o <;> cases op <;> exact Nat.le_of_ble_eq_true rfl
  | unaryOp o _ _ => cases o <;> cases op <;> exact Nat.le_of_ble_eq_true rfl
  | _ => cases op <;> exact Nat.le_of_ble_eq_true rfl

theorem num_right (op : BasicBinOp) (rep) (r : Num.Expr)
    (h : ∀ op' rep' a b, r = .binOp op' rep' a b → numClass op' ≠ numClass op) :
    numRules.level ⟨op, rep⟩ + 1 < shown numRules numStyle (ofNum r) (numStyle.bin ⟨op, rep⟩) := by
  cases r with
  | binOp o _ _ _ =>
    have := h o _ _ _ rfl
    cases o <;> cases op <;> first | exact absurd rfl this | exact Nat.le_of_ble_eq_true rfl
  | unaryOp o _ _ => cases o <;> cases op <;> exact Nat.le_of_ble_eq_true rfl
  | _ => cases op <;> exact Nat.le_of_ble_eq_true rfl

theorem num_pre (op : BasicUnaryOp) (rep) (e : Num.Expr) (hf : numRules.far ⟨op, rep⟩ = false) :
    101 ≤ shown numRules numStyle (ofNum e) (numStyle.preInner ⟨op, rep⟩) := by
  cases e with
  | binOp o _ _ _ => cases o <;> cases op <;> first | exact Nat.le_of_ble_eq_true rfl | exact Bool.noConfusion hf
  | unaryOp o _ _ => cases o <;> cases op <;> first | exact Nat.le_of_ble_eq_true rfl | exact Bool.noConfusion hf
  | _ => cases op <;> first | exact Nat.le_of_ble_eq_true rfl | exact Bool.noConfusion hf

theorem num_post (c : NumCast) (e : Num.Expr) :
    100 ≤ shown numRules numStyle (ofNum e) (numStyle.postInner c) := by
  cases e with
  | binOp o _ _ _ => cases o <;> exact Nat.le_of_ble_eq_true rfl
  | unaryOp o _ _ => cases o <;> exact Nat.le_of_ble_eq_true rfl
  | _ => exact Nat.le_of_ble_eq_true rfl

theorem LeftLeaning.normal : ∀ {e : Num.Expr}, LeftLeaning e → Normal numRules numStyle (ofNum e)
  | .const _, _ => trivial
  | .numVar _, _ => trivial
  | .unaryOp op rep e, h => ⟨num_pre op rep e, LeftLeaning.normal (e := e) h⟩
  | .cast _ _ e, h => ⟨num_post _ e, LeftLeaning.normal (e := e) h⟩
  | .binOp op rep l r, ⟨hl, hr, h⟩ =>
    ⟨num_left op rep l, fun hu => by simp [numRules] at hu, num_right op rep r h, hl.normal, hr.normal⟩

theorem ofNum_inj : ∀ {e e' : Num.Expr}, ofNum e = ofNum e' → e = e' := by
  intro e
  induction e with
  | const c => intro e' h; cases e' <;> simp_all [ofNum]
  | numVar c => intro e' h; cases e' <;> simp_all [ofNum]
  | unaryOp op rep e ih =>
    intro e' h
    cases e' <;> simp only [ofNum, Tree.pre.injEq, NumUn.mk.injEq, reduceCtorEq] at h
    rw [ih h.2, h.1.1, h.1.2]
  | cast rep bw e ih =>
    intro e' h
    cases e' <;> simp only [ofNum, Tree.post.injEq, NumCast.mk.injEq, reduceCtorEq] at h
    rw [ih h.2, h.1.1, h.1.2]
  | binOp op rep l r ihl ihr =>
    intro e' h
    cases e' <;> simp only [ofNum, Tree.bin.injEq, NumBin.mk.injEq, reduceCtorEq] at h
    rw [ihl h.2.1, ihr h.2.2, h.1.1, h.1.2]

/-! ### regrouping -/

theorem numStyle_bin_eq {op op' : BasicBinOp} (h : numClass op' = numClass op) (rep rep') :
    numStyle.bin ⟨op', rep'⟩ = numStyle.bin ⟨op, rep⟩ := by
  cases op <;> cases op' <;> first | rfl | cases h

theorem numStyle_binOwn_eq (o : NumBin) : numStyle.binOwn o = numStyle.bin o := rfl

theorem needsParen_self (op : BasicBinOp) (rep) :
    needsParen (numStyle.bin ⟨op, rep⟩) (numStyle.bin ⟨op, rep⟩) = false := by
  cases op <;> rfl

theorem numPrint_bin_congr {op : BasicBinOp} {rep l l' r r'} (cur : Precedence)
    (hl : numStyle.print (ofNum l) (numStyle.bin ⟨op, rep⟩) = numStyle.print (ofNum l') (numStyle.bin ⟨op, rep⟩))
    (hr : numStyle.print (ofNum r) (numStyle.bin ⟨op, rep⟩) = numStyle.print (ofNum r') (numStyle.bin ⟨op, rep⟩)) :
    numStyle.print (ofNum (.binOp op rep l r)) cur = numStyle.print (ofNum (.binOp op rep l' r')) cur := by
  simp only [ofNum, Style.print, hl, hr]

theorem print_attach (op : BasicBinOp) (rep) (l : Num.Expr) : ∀ (r : Num.Expr) (cur : Precedence),
    numStyle.print (ofNum (attach op rep l r)) cur = numStyle.print (ofNum (.binOp op rep l r)) cur
  | .const _, _ => rfl
  | .numVar _, _ => rfl
  | .unaryOp _ _ _, _ => rfl
  | .cast _ _ _, _ => rfl
  | .binOp op' rep' a b, cur => by
    rw [attach]
    split
    · rename_i hc
      have hb := numStyle_bin_eq hc rep rep'
      have ih := print_attach op rep l a (numStyle.bin ⟨op, rep⟩)
      simp only [ofNum, Style.print, numStyle_binOwn_eq] at ih ⊢
      rw [hb, ih]
      simp only [condParen, needsParen_self, Bool.false_eq_true, if_false, List.append_assoc,
        List.cons_append]
    · rfl

theorem print_regroup : ∀ (e : Num.Expr) (cur : Precedence),
    numStyle.print (ofNum (regroup e)) cur = numStyle.print (ofNum e) cur
  | .const _, _ => rfl
  | .numVar _, _ => rfl
  | .unaryOp op rep e, cur => by
    simp only [regroup, ofNum, Style.print, print_regroup e]
  | .cast _ _ e, cur => by
    simp only [regroup, ofNum, Style.print, print_regroup e]
  | .binOp op rep l r, cur => by
    rw [regroup, print_attach]
    exact numPrint_bin_congr cur (print_regroup l _) (print_regroup r _)

theorem attach_root (op : BasicBinOp) (rep) (l : Num.Expr) : ∀ r : Num.Expr,
    ∃ op' rep' a b, attach op rep l r = .binOp op' rep' a b ∧ numClass op' = numClass op
  | .const _ => ⟨op, rep, _, _, rfl, rfl⟩
  | .numVar _ => ⟨op, rep, _, _, rfl, rfl⟩
  | .unaryOp _ _ _ => ⟨op, rep, _, _, rfl, rfl⟩
  | .cast _ _ _ => ⟨op, rep, _, _, rfl, rfl⟩
  | .binOp op' rep' a b => by
    rw [attach]
    split
    · rename_i hc
      exact ⟨op', rep', _, _, rfl, hc⟩
    · exact ⟨op, rep, _, _, rfl, rfl⟩

theorem attach_leftLeaning {op : BasicBinOp} {rep} {l : Num.Expr} (hl : LeftLeaning l) :
    ∀ {r : Num.Expr}, LeftLeaning r → LeftLeaning (attach op rep l r)
  | .const _, _ => ⟨hl, trivial, fun _ _ _ _ h => by cases h⟩
  | .numVar _, _ => ⟨hl, trivial, fun _ _ _ _ h => by cases h⟩
  | .unaryOp _ _ _, hr => ⟨hl, hr, fun _ _ _ _ h => by cases h⟩
  | .cast _ _ _, hr => ⟨hl, hr, fun _ _ _ _ h => by cases h⟩
  | .binOp op' rep' a b, hr => by
    rw [attach]
    split
    · rename_i hc
      exact ⟨attach_leftLeaning hl hr.1, hr.2.1, hr.2.2⟩
    · rename_i hc
      refine ⟨hl, hr, ?_⟩
      intro op'' rep'' a' b' h
      cases h
      exact hc

theorem regroup_leftLeaning : ∀ e : Num.Expr, LeftLeaning (regroup e)
  | .const _ => trivial
  | .numVar _ => trivial
  | .unaryOp _ _ e => regroup_leftLeaning e
  | .cast _ _ e => regroup_leftLeaning e
  | .binOp _ _ l r => attach_leftLeaning (regroup_leftLeaning l) (regroup_leftLeaning r)

theorem attach_of_ne {op : BasicBinOp} {rep} {l r : Num.Expr}
    (h : ∀ op' rep l' r', r = .binOp op' rep l' r' → numClass op' ≠ numClass op) :
    attach op rep l r = .binOp op rep l r := by
  cases r with
  | binOp op' _ _ _ => rw [attach, if_neg (h op' _ _ _ rfl)]
  | _ => rfl

theorem regroup_of_leftLeaning : ∀ {e : Num.Expr}, LeftLeaning e → regroup e = e
  | .const _, _ => rfl
  | .numVar _, _ => rfl
  | .unaryOp _ _ e, h => by rw [regroup, regroup_of_leftLeaning (e := e) h]
  | .cast _ _ e, h => by rw [regroup, regroup_of_leftLeaning (e := e) h]
  | .binOp op rep l r, ⟨hl, hr, h⟩ => by
    rw [regroup, regroup_of_leftLeaning hl, regroup_of_leftLeaning hr, attach_of_ne h]

/-! ### Rust -/

theorem rust_right {α : Type} (own : α → Option Precedence) (o : InfixOperator)
    (r : Tree α InfixOperator RPre RPost) (h1 : rootClass r ≠ some (infixClass o))
    (h2 : (infixClass o).compares = true → ∀ c, rootClass r = some c → c.logical = false) :
    rustRules.level o + 1 < shown rustRules (rustStyle own) r ((rustStyle own).bin o) := by
  match r with
  | .atom a =>
    have : shown rustRules (rustStyle own) (.atom a) ((rustStyle own).bin o) = 103 := by
      simp [shown, lvl]
    rw [this]
    have := rustRules_wf.bound o
    omega
  | .bin o' _ _ =>
    cases o <;> cases o' <;>
      first
      | exact Nat.le_of_ble_eq_true rfl
      | exact absurd rfl h1
      | exact absurd (h2 rfl _ rfl) (by decide)
  | .pre o' _ => cases o <;> cases o' <;> exact Nat.le_of_ble_eq_true rfl
  | .post o' _ => cases o <;> cases o' <;> exact Nat.le_of_ble_eq_true rfl

theorem rust_left {α : Type} (own : α → Option Precedence) (o : InfixOperator)
    (l : Tree α InfixOperator RPre RPost)
    (h2 : (infixClass o).compares = true → ∀ c, rootClass l = some c → c.logical = false) :
    rustRules.level o + 1 ≤ shown rustRules (rustStyle own) l ((rustStyle own).bin o) := by
  match l with
  | .atom a =>
    have : shown rustRules (rustStyle own) (.atom a) ((rustStyle own).bin o) = 103 := by
      simp [shown, lvl]
    rw [this]
    have := rustRules_wf.bound o
    omega
  | .bin o' _ _ =>
    cases o <;> cases o' <;>
      first
      | exact Nat.le_of_ble_eq_true rfl
      | exact absurd (h2 rfl _ rfl) (by decide)
  | .pre o' _ => cases o <;> cases o' <;> exact Nat.le_of_ble_eq_true rfl
  | .post o' _ => cases o <;> cases o' <;> exact Nat.le_of_ble_eq_true rfl

theorem rust_pre {α : Type} (own : α → Option Precedence) (o : RPre)
    (e : Tree α InfixOperator RPre RPost) :
    101 ≤ shown rustRules (rustStyle own) e ((rustStyle own).preInner o) := by
  match e with
  | .atom a =>
    have : shown rustRules (rustStyle own) (.atom a) ((rustStyle own).preInner o) = 103 := by
      simp [shown, lvl]
    rw [this]
    decide
  | .bin o' _ _ => cases o' <;> exact Nat.le_of_ble_eq_true rfl
  | .pre o' _ => cases o' <;> exact Nat.le_of_ble_eq_true rfl
  | .post o' _ => cases o' <;> exact Nat.le_of_ble_eq_true rfl

theorem rust_post {α : Type} (own : α → Option Precedence) (o : RPost)
    (e : Tree α InfixOperator RPre RPost) (h : rustRules.near o = true → isPointer e = false) :
    (if rustRules.near o then 102 else 100) ≤
      shown rustRules (rustStyle own) e ((rustStyle own).postInner o) := by
  match e with
  | .atom a =>
    have : shown rustRules (rustStyle own) (.atom a) ((rustStyle own).postInner o) = 103 := by
      simp [shown, lvl]
    rw [this]
    split <;> decide
  | .bin o' _ _ => cases o <;> cases o' <;> exact Nat.le_of_ble_eq_true rfl
  | .pre o' _ =>
    cases o <;> cases o' <;>
      first
      | exact Nat.le_of_ble_eq_true rfl
      | exact absurd (h rfl) (by simp [isPointer])
  | .post o' _ => cases o <;> cases o' <;> exact Nat.le_of_ble_eq_true rfl

theorem Tame.normal {α : Type} (own : α → Option Precedence) :
    ∀ {e : Tree α InfixOperator RPre RPost}, Tame e → Normal rustRules (rustStyle own) e
  | .atom _, _ => trivial
  | .pre o e, h => ⟨fun _ => rust_pre own o e, Tame.normal own (e := e) h⟩
  | .post o e, h => ⟨rust_post own o e h.2, Tame.normal own (e := e) h.1⟩
  | .bin o l r, ⟨hl, hr, h1, h2⟩ => by
    refine ⟨rust_left own o l fun hc => (h2 hc).2.1, fun hu => ?_,
      rust_right own o r h1 fun hc => (h2 hc).2.2, hl.normal own, hr.normal own⟩
    have hc : (infixClass o).compares = true := by revert hu; cases o <;> simp [rustRules, infixClass, InfixClass.compares]
    exact rust_right own o l (h2 hc).1 fun hc => (h2 hc).2.1

/-! ### values -/

theorem mkNum_ok {k : UKind} {n : Nat} {v : Value} (h : Value.mkNum k n = .ok v) :
    n < k.card ∧ RVal.ofValue v = some (.uint k n) ∧ v.coerceMapped = v := by
  unfold Value.mkNum at h
  split at h
  · cases h
    refine ⟨by assumption, rfl, ?_⟩
    simp [Value.coerceMapped]
  · cases h

theorem shift_mod {k : UKind} {b : Nat} (h : b % u32Card < k.bits) :
    b % k.bits = b % u32Card := by
  have hd : k.bits ∣ u32Card := by
    cases k with
    | fixed w => cases w <;> decide
    | usize => decide
  rw [← Nat.mod_mod_of_dvd b hd, Nat.mod_eq_of_lt h]

theorem shift_small {k : UKind} {b : Nat} (h : b < k.bits) : b % u32Card = b := by
  have : k.bits ≤ 64 := by
    cases k with
    | fixed w => cases w <;> decide
    | usize => decide
  refine Nat.mod_eq_of_lt ?_
  have : 64 < u32Card := by decide
  omega

theorem rustInfix_arith (checks : Bool) (op : Arith) (o : InfixOperator) (ho : infixOfArith op = some o)
    (hs : checks = true → o ≠ .shl ∧ o ≠ .shr)
    {a b v : Value} {ra rb : RVal} (h : Value.arith op a b = .ok v) (ha : RVal.ofValue a = some ra)
    (hb : RVal.ofValue b = some rb) :
    ∃ r, RVal.ofValue v = some r ∧ v.coerceMapped = v ∧ rustInfix checks o ra rb = some r := by
  have boolCase : ∀ c : Bool, v = .bool c →
      ∃ r, RVal.ofValue v = some r ∧ v.coerceMapped = v ∧ r = .bool c :=
    fun c hv => ⟨.bool c, by rw [hv]; rfl, by rw [hv]; simp [Value.coerceMapped], rfl⟩
  have numCase : op ≠ .boolAnd → op ≠ .boolOr → ∃ k l x, ra = .uint k l ∧ rb = .uint k x ∧
      Value.arithNum op k l x = .ok v := by
    intro h1 h2
    cases op <;> simp only [Value.arith] at h <;> first | exact absurd rfl h1 | exact absurd rfl h2 | skip
    all_goals
      split at h
      · rename_i k l k' x
        split at h
        · rename_i hk
          subst hk
          cases ha
          cases hb
          exact ⟨k, l.val, x.val, rfl, rfl, h⟩
        · cases h
      · cases h
  cases op with
  | boolOr =>
    cases ho
    simp only [Value.arith] at h
    split at h
    · cases h; cases ha; cases hb
      exact ⟨_, rfl, by simp [Value.coerceMapped], rfl⟩
    · cases h
  | boolAnd =>
    cases ho
    simp only [Value.arith] at h
    split at h
    · cases h; cases ha; cases hb
      exact ⟨_, rfl, by simp [Value.coerceMapped], rfl⟩
    · cases h
  | sub => cases ho
  | add =>
    cases ho
    obtain ⟨k, l, x, rfl, rfl, h⟩ := numCase (by simp) (by simp)
    obtain ⟨h1, h2, h3⟩ := mkNum_ok h
    exact ⟨_, h2, h3, by simp [rustInfix, wrap, h1]⟩
  | mul =>
    cases ho
    obtain ⟨k, l, x, rfl, rfl, h⟩ := numCase (by simp) (by simp)
    obtain ⟨h1, h2, h3⟩ := mkNum_ok h
    exact ⟨_, h2, h3, by simp [rustInfix, wrap, h1]⟩
  | bitOr =>
    cases ho
    obtain ⟨k, l, x, rfl, rfl, h⟩ := numCase (by simp) (by simp)
    obtain ⟨h1, h2, h3⟩ := mkNum_ok h
    exact ⟨_, h2, h3, by simp [rustInfix]⟩
  | bitAnd =>
    cases ho
    obtain ⟨k, l, x, rfl, rfl, h⟩ := numCase (by simp) (by simp)
    obtain ⟨h1, h2, h3⟩ := mkNum_ok h
    exact ⟨_, h2, h3, by simp [rustInfix]⟩
  | div =>
    cases ho
    obtain ⟨k, l, x, rfl, rfl, h⟩ := numCase (by simp) (by simp)
    simp only [Value.arithNum] at h
    split at h
    · cases h
    · rename_i hx
      obtain ⟨h1, h2, h3⟩ := mkNum_ok h
      exact ⟨_, h2, h3, by simp [rustInfix, hx]⟩
  | rem =>
    cases ho
    obtain ⟨k, l, x, rfl, rfl, h⟩ := numCase (by simp) (by simp)
    simp only [Value.arithNum] at h
    split at h
    · cases h
    · rename_i hx
      obtain ⟨h1, h2, h3⟩ := mkNum_ok h
      exact ⟨_, h2, h3, by simp [rustInfix, hx]⟩
  | shl =>
    cases ho
    obtain ⟨k, l, x, rfl, rfl, h⟩ := numCase (by simp) (by simp)
    have hc : checks = false := by
      cases checks
      · rfl
      · exact absurd rfl (hs rfl).1
    simp only [Value.arithNum] at h
    split at h
    · rename_i hx
      obtain ⟨h1, h2, h3⟩ := mkNum_ok h
      refine ⟨_, h2, h3, ?_⟩
      simp only [rustInfix]
      split
      · rename_i hb
        rw [shift_small hb]
      · rw [hc, shift_mod hx]
        rfl
    · cases h
  | shr =>
    cases ho
    obtain ⟨k, l, x, rfl, rfl, h⟩ := numCase (by simp) (by simp)
    have hc : checks = false := by
      cases checks
      · rfl
      · exact absurd rfl (hs rfl).2
    simp only [Value.arithNum] at h
    split at h
    · rename_i hx
      obtain ⟨h1, h2, h3⟩ := mkNum_ok h
      refine ⟨_, h2, h3, ?_⟩
      simp only [rustInfix]
      split
      · rename_i hb
        rw [shift_small hb]
      · rw [hc, shift_mod hx]
        rfl
    · cases h

theorem rustInfix_rel (checks : Bool) (op : IntRel) {a b v : Value} {ra rb : RVal}
    (h : Value.intRel op a b = .ok v) (ha : RVal.ofValue a = some ra) (hb : RVal.ofValue b = some rb) :
    ∃ r, RVal.ofValue v = some r ∧ v.coerceMapped = v ∧
      rustInfix checks (infixOfRel op) ra rb = some r := by
  have key : ∃ k l x, ra = .uint k l ∧ rb = .uint k x ∧ v = .bool (Value.rel op (l : Nat) (x : Nat)) := by
    unfold Value.intRel at h
    split at h
    · rename_i k l k' x
      split at h
      · rename_i hk
        subst hk
        cases h
        cases ha
        cases hb
        exact ⟨k, l.val, x.val, rfl, rfl, rfl⟩
      · cases h
    · cases ha
    · cases ha
    · cases hb
    · cases h
  obtain ⟨k, l, x, rfl, rfl, rfl⟩ := key
  refine ⟨_, rfl, by simp [Value.coerceMapped], ?_⟩
  have heq : ((l : Int) == (x : Int)) = (l == x) := by
    rw [Bool.eq_iff_iff]
    simp only [beq_iff_eq]
    exact Int.ofNat_inj
  cases op <;> simp [infixOfRel, rustInfix, Value.rel, bne, heq]

theorem rustValue_bin {checks : Bool} {leaf : Expr → Option RVal} {o : InfixOperator} {l r} {a b c : RVal}
    (hl : rustValue checks leaf l = some a) (hr : rustValue checks leaf r = some b)
    (h : rustInfix checks o a b = some c) : rustValue checks leaf (.bin o l r) = some c := by
  rw [rustValue, hl]
  dsimp only
  split
  · cases b with
    | bool b => simpa [rustInfix] using h
    | uint k n => simp [rustInfix] at h
  · cases b with
    | bool b => simpa [rustInfix] using h
    | uint k n => simp [rustInfix] at h
  · rw [hr]
    exact h

theorem embed_leaf_value {δ : Type} {s : Scope δ} {leaf : Expr → Option RVal} {e : Expr}
    (he : embed e = .atom e) (hl : LeavesAgree s leaf e) {checks : Bool} {v : Value} (h : e.eval s = .ok v) :
    ∃ r, RVal.ofValue v.coerceMapped = some r ∧ rustValue checks leaf (embed e) = some r := by
  have := hl e (by rw [he]; simp [leaves]) v h
  rw [he]
  exact this

theorem embed_value {δ : Type} {s : Scope δ} {leaf : Expr → Option RVal} {checks : Bool} :
    ∀ {e : Expr} {v : Value}, LeavesAgree s leaf e → (checks = true → NoShift (embed e)) →
      e.eval s = .ok v →
      ∃ r, RVal.ofValue v.coerceMapped = some r ∧ rustValue checks leaf (embed e) = some r
  | .arith op x y, v, hl, hs, h => by
    cases ho : infixOfArith op with
    | none => exact embed_leaf_value (by simp [embed, ho]) hl h
    | some o =>
      have he : embed (.arith op x y) = .bin o (embed x) (embed y) := by simp [embed, ho]
      simp only [LeavesAgree, he, leaves, List.mem_append] at hl
      rw [he] at hs ⊢
      simp only [Expr.eval, Panicky.bind_eq_ok] at h
      obtain ⟨a, ha, b, hb, h⟩ := h
      obtain ⟨ra, hra, hva⟩ := embed_value (checks := checks) (leaf := leaf)
        (fun z hz => hl z (.inl hz)) (fun hc => (hs hc).2.2.1) ha
      obtain ⟨rb, hrb, hvb⟩ := embed_value (checks := checks) (leaf := leaf)
        (fun z hz => hl z (.inr hz)) (fun hc => (hs hc).2.2.2) hb
      obtain ⟨r, h1, h2, h3⟩ := rustInfix_arith checks op o ho
        (fun hc => ⟨(hs hc).1, (hs hc).2.1⟩) h hra hrb
      exact ⟨r, by rw [h2]; exact h1, rustValue_bin hva hvb h3⟩
  | .intRel op x y, v, hl, hs, h => by
    have he : embed (.intRel op x y) = .bin (infixOfRel op) (embed x) (embed y) := rfl
    simp only [LeavesAgree, he, leaves, List.mem_append] at hl
    rw [he] at hs ⊢
    simp only [Expr.eval, Panicky.bind_eq_ok] at h
    obtain ⟨a, ha, b, hb, h⟩ := h
    obtain ⟨ra, hra, hva⟩ := embed_value (checks := checks) (leaf := leaf)
      (fun z hz => hl z (.inl hz)) (fun hc => (hs hc).2.2.1) ha
    obtain ⟨rb, hrb, hvb⟩ := embed_value (checks := checks) (leaf := leaf)
      (fun z hz => hl z (.inr hz)) (fun hc => (hs hc).2.2.2) hb
    obtain ⟨r, h1, h2, h3⟩ := rustInfix_rel checks op h hra hrb
    exact ⟨r, by rw [h2]; exact h1, rustValue_bin hva hvb h3⟩
  | .unary .boolNot x, v, hl, hs, h => by
    have he : embed (.unary .boolNot x) = .pre .boolNot (embed x) := rfl
    simp only [LeavesAgree, he, leaves] at hl
    rw [he] at hs ⊢
    simp only [Expr.eval, Panicky.bind_eq_ok] at h
    obtain ⟨a, ha, h⟩ := h
    obtain ⟨ra, hra, hva⟩ := embed_value (checks := checks) (leaf := leaf) hl hs ha
    simp only [Value.unary] at h
    split at h
    · rename_i b hb
      cases h
      rw [hb] at hra
      cases hra
      exact ⟨.bool (!b), by simp [Value.coerceMapped, RVal.ofValue], by rw [rustValue, hva]⟩
    · cases h
  | .asNum w x, v, hl, hs, h => by
    have he : embed (.asNum w x) = .post (.asCast w) (embed x) := rfl
    simp only [LeavesAgree, he, leaves] at hl
    rw [he] at hs ⊢
    simp only [Expr.eval, Panicky.bind_eq_ok] at h
    obtain ⟨a, ha, h⟩ := h
    obtain ⟨ra, hra, hva⟩ := embed_value (checks := checks) (leaf := leaf) hl hs ha
    unfold Expr.castTo at h
    split at h
    · rename_i k n hn
      rw [hn] at hra
      cases hra
      obtain ⟨h1, h2, h3⟩ := mkNum_ok h
      exact ⟨_, by rw [h3]; exact h2, by rw [rustValue, hva]; simp [Nat.mod_eq_of_lt h1]⟩
    · cases h
  | .unary .intSucc _, _, hl, _, h => embed_leaf_value rfl hl h
  | .unary .intPred _, _, hl, _, h => embed_leaf_value rfl hl h
  | .var _, _, hl, _, h => embed_leaf_value rfl hl h
  | .bool _, _, hl, _, h => embed_leaf_value rfl hl h
  | .lit _ _, _, hl, _, h => embed_leaf_value rfl hl h
  | .tuple _, _, hl, _, h => embed_leaf_value rfl hl h
  | .tupleProj _ _, _, hl, _, h => embed_leaf_value rfl hl h
  | .record _, _, hl, _, h => embed_leaf_value rfl hl h
  | .recordProj _ _, _, hl, _, h => embed_leaf_value rfl hl h
  | .variant _ _, _, hl, _, h => embed_leaf_value rfl hl h
  | .seq _, _, hl, _, h => embed_leaf_value rfl hl h
  | .numeric _, _, hl, _, h => embed_leaf_value rfl hl h
  | .match_ _ _, _, hl, _, h => embed_leaf_value rfl hl h
  | .destructure _ _ _, _, hl, _, h => embed_leaf_value rfl hl h
  | .lambda _ _, _, hl, _, h => embed_leaf_value rfl hl h
  | .asChar _, _, hl, _, h => embed_leaf_value rfl hl h
  | .fromBytes _ _ _, _, hl, _, h => embed_leaf_value rfl hl h
  | .seqLength _, _, hl, _, h => embed_leaf_value rfl hl h
  | .subSeq _ _ _, _, hl, _, h => embed_leaf_value rfl hl h
  | .seqIx _ _, _, hl, _, h => embed_leaf_value rfl hl h
  | .subSeqInflate _ _ _, _, hl, _, h => embed_leaf_value rfl hl h
  | .flatMap _ _, _, hl, _, h => embed_leaf_value rfl hl h
  | .flatMapAccum _ _ _ _, _, hl, _, h => embed_leaf_value rfl hl h
  | .flatMapList _ _ _, _, hl, _, h => embed_leaf_value rfl hl h
  | .findByKey _ _ _ _, _, hl, _, h => embed_leaf_value rfl hl h
  | .enumFromTo _ _, _, hl, _, h => embed_leaf_value rfl hl h
  | .leftFold _ _ _ _, _, hl, _, h => embed_leaf_value rfl hl h
  | .dup _ _, _, hl, _, h => embed_leaf_value rfl hl h
  | .liftNone, _, hl, _, h => embed_leaf_value rfl hl h
  | .liftSome _, _, hl, _, h => embed_leaf_value rfl hl h
  | .append _ _, _, hl, _, h => embed_leaf_value rfl hl h

end Printer
end Doodle
