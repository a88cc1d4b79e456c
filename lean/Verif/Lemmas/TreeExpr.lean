import Verif.Lemmas.Reading
import Verif.Spec.TreeExpr
import Verif.Model.Infer

/-! Lemmas: tame expressions are printed with tight operands. -/

namespace Doodle
namespace TreeExpr

open Prec Reading Printer

theorem treeRules_wf : RulesWF treeRules where
  bound := fun o => by rcases o with op | r | _ | _ <;> (try cases op) <;> exact Nat.le_of_ble_eq_true rfl
  uniform := fun o o' => by
    rcases o with op | r | _ | _ <;> rcases o' with op' | r' | _ | _ <;> (try cases op) <;> (try cases op') <;>
      first | exact fun _ => rfl | exact fun h => absurd h (by simp [treeRules])

theorem shown_atom (a : Expr) (cur : Precedence) : shown treeRules treeStyle (.atom a) cur = 103 := by
  simp [shown, lvl]

/-- the operands of an operator that are tight enough on the left and on the right -/
def okLeft (c : Class) (x : Option Class) : Bool :=
  match c with
  | .equality => x != some .logical
  | .order => x != some .logical && x != some .equality && x != some .order
  | _ => true

def okRight (c : Class) (x : Option Class) : Bool :=
  match c with
  | .logical => true
  | .equality => x != some .logical
  | .order => x != some .logical && x != some .equality && x != some .order
  | c => x != some c

theorem tree_left (o : Bin) (l : Tree Expr Bin Pre Post) (h : okLeft o.class (root l) = true) :
    treeRules.level o + 1 ≤ shown treeRules treeStyle l (treeStyle.bin o) ∧
      (treeRules.unchained o = true → treeRules.level o + 1 < shown treeRules treeStyle l (treeStyle.bin o)) := by
  match l, h with
  | .atom a, _ =>
    rw [shown_atom]
    have := treeRules_wf.bound o
    omega
  | .bin o' _ _, h =>
    rcases o with op | r | _ | _ <;> rcases o' with op' | r' | _ | _ <;> (try cases op) <;> (try cases r) <;> (try cases op') <;>
      (try cases r') <;>
      first
      | exact ⟨Nat.le_of_ble_eq_true rfl, fun _ => Nat.le_of_ble_eq_true rfl⟩
      | exact ⟨Nat.le_of_ble_eq_true rfl, fun hu => Bool.noConfusion hu⟩
      | exact Bool.noConfusion h
  | .pre o' _, _ =>
    rcases o with op | r | _ | _ <;> (try cases op) <;> (try cases r) <;> cases o' <;>
      exact ⟨Nat.le_of_ble_eq_true rfl, fun _ => Nat.le_of_ble_eq_true rfl⟩
  | .post o' _, _ =>
    rcases o with op | r | _ | _ <;> (try cases op) <;> (try cases r) <;> cases o' <;>
      exact ⟨Nat.le_of_ble_eq_true rfl, fun _ => Nat.le_of_ble_eq_true rfl⟩

theorem tree_right (o : Bin) (l : Tree Expr Bin Pre Post) (h : okRight o.class (root l) = true) :
    treeRules.level o + 1 < shown treeRules treeStyle l (treeStyle.bin o) := by
  match l, h with
  | .atom a, _ =>
    rw [shown_atom]
    have := treeRules_wf.bound o
    omega
  | .bin o' _ _, h =>
    rcases o with op | r | _ | _ <;> rcases o' with op' | r' | _ | _ <;> (try cases op) <;> (try cases r) <;> (try cases op') <;>
      (try cases r') <;>
      first
      | exact Nat.le_of_ble_eq_true rfl
      | exact Bool.noConfusion h
  | .pre o' _, _ =>
    rcases o with op | r | _ | _ <;> (try cases op) <;> (try cases r) <;> cases o' <;> exact Nat.le_of_ble_eq_true rfl
  | .post o' _, _ =>
    rcases o with op | r | _ | _ <;> (try cases op) <;> (try cases r) <;> cases o' <;> exact Nat.le_of_ble_eq_true rfl

theorem tree_pre (o : Pre) (e : Tree Expr Bin Pre Post) (hf : treeRules.far o = false) :
    101 ≤ shown treeRules treeStyle e (treeStyle.preInner o) := by
  have hi : treeStyle.preInner o = .ATOM := by
    cases o <;> first | rfl | exact Bool.noConfusion hf
  rw [hi]
  match e with
  | .atom a => rw [shown_atom]; decide
  | .bin o' _ _ => rcases o' with op' | r' | _ | _ <;> (try cases op') <;> exact Nat.le_of_ble_eq_true rfl
  | .pre o' _ => cases o' <;> exact Nat.le_of_ble_eq_true rfl
  | .post o' _ => cases o' <;> exact Nat.le_of_ble_eq_true rfl

theorem tree_post (o : Post) (e : Tree Expr Bin Pre Post) :
    102 ≤ shown treeRules treeStyle e (treeStyle.postInner o) := by
  match e with
  | .atom a => rw [shown_atom]; decide
  | .bin o' _ _ => rcases o' with op' | r' | _ | _ <;> (try cases op') <;> exact Nat.le_of_ble_eq_true rfl
  | .pre o' _ => cases o' <;> exact Nat.le_of_ble_eq_true rfl
  | .post o' _ => cases o' <;> exact Nat.le_of_ble_eq_true rfl

theorem Tame.ok {o : Bin} {l r : Tree Expr Bin Pre Post} (h : Tame (.bin o l r)) :
    okLeft o.class (root l) = true ∧ okRight o.class (root r) = true := by
  have h := h.2.2
  revert h
  cases o.class <;> simp [okLeft, okRight, and_assoc]

theorem Tame.normal : ∀ {e : Tree Expr Bin Pre Post}, Tame e → Normal treeRules treeStyle e
  | .atom _, _ => trivial
  | .pre o e, h => ⟨tree_pre o e, Tame.normal (e := e) h⟩
  | .post o e, h => ⟨tree_post o e, Tame.normal (e := e) h⟩
  | .bin o l r, h =>
    ⟨(tree_left o l h.ok.1).1, (tree_left o l h.ok.1).2, tree_right o r h.ok.2, Tame.normal h.1, Tame.normal h.2.1⟩

/-- the expression of an operator tree -/
def toExpr : Tree Expr Bin Pre Post → Expr
  | .atom a => a
  | .bin (.arith op) x y => .arith op (toExpr x) (toExpr y)
  | .bin (.rel r) x y => .intRel r (toExpr x) (toExpr y)
  | .bin .append x y => .append (toExpr x) (toExpr y)
  | .bin .range x y => .enumFromTo (toExpr x) (toExpr y)
  | .pre o x => match o with
    | .lambda n => .lambda n (toExpr x)
    | .unary op => .unary op (toExpr x)
    | .asNum w => .asNum w (toExpr x)
    | .asChar => .asChar (toExpr x)
    | .fromBytes w be => .fromBytes w be (toExpr x)
    | .seqLength => .seqLength (toExpr x)
    | .seqIx i => .seqIx (toExpr x) i
    | .subSeq i n => .subSeq (toExpr x) i n
    | .subSeqInflate i n => .subSeqInflate (toExpr x) i n
    | .flatMap f => .flatMap f (toExpr x)
    | .flatMapAccum f a t => .flatMapAccum f a t (toExpr x)
    | .leftFold f a t => .leftFold f a t (toExpr x)
    | .findByKey b f q => .findByKey b f q (toExpr x)
    | .flatMapList f t => .flatMapList f t (toExpr x)
    | .dup n => .dup n (toExpr x)
    | .some => .liftSome (toExpr x)
  | .post (.tupleProj i) x => .tupleProj (toExpr x) i
  | .post (.recordProj l) x => .recordProj (toExpr x) l

theorem toExpr_ofExpr (e : Expr) : toExpr (ofExpr e) = e := by
  fun_induction ofExpr e <;> simp_all only [toExpr]

theorem ofExpr_inj {e e' : Expr} (h : ofExpr e = ofExpr e') : e = e' := by
  rw [← toExpr_ofExpr e, h, toExpr_ofExpr]

theorem same_class {o o' : Bin} (h : o'.class = o.class) (hl : o.class ≠ .logical) (he : o.class ≠ .equality) :
    o'.inner = o.inner ∧ o'.own = o.own ∧ needsParen o.inner o.own = false := by
  revert h hl he
  rcases o with op | r | _ | _ <;> rcases o' with op' | r' | _ | _ <;> (try cases op) <;> (try cases r) <;> (try cases op') <;>
    (try cases r') <;>
    first
    | exact fun _ _ _ => ⟨rfl, rfl, rfl⟩
    | exact fun h => Class.noConfusion h
    | exact fun _ h => absurd rfl h
    | exact fun _ _ h => absurd rfl h

/-- grouping is lost -/
theorem print_chain {o o' : Bin} (h : o'.class = o.class) (hl : o.class ≠ .logical) (he : o.class ≠ .equality)
    (a b c : Tree Expr Bin Pre Post) (cur : Precedence) :
    treeStyle.print (.bin o a (.bin o' b c)) cur = treeStyle.print (.bin o' (.bin o a b) c) cur := by
  obtain ⟨h1, h2, h3⟩ := same_class h hl he
  have hi : treeStyle.bin o' = treeStyle.bin o := h1
  have ho : treeStyle.binOwn o' = treeStyle.binOwn o := h2
  have hn : needsParen (treeStyle.bin o) (treeStyle.binOwn o) = false := h3
  simp only [Style.print, hi, ho, condParen, hn, Bool.false_eq_true, if_false, List.append_assoc, List.cons_append]


/-! ### typed expressions -/

theorem unify_bool_left {t t' : ValueType} (h : ValueType.unify (.base .bool) t = some t') : t' = .base .bool := by
  cases t <;> simp [ValueType.unify] at h
  all_goals first | exact h.symm | (obtain ⟨_, h⟩ := h; exact h.symm)

theorem unify_bool_right {t t' : ValueType} (h : ValueType.unify t (.base .bool) = some t') : t' = .base .bool := by
  cases t <;> simp [ValueType.unify] at h
  all_goals first | exact h.symm | (obtain ⟨rfl, h⟩ := h; exact h.symm) | (obtain ⟨_, h⟩ := h; exact h.symm)

theorem infer_rel {r : IntRel} {x y : Expr} {Γ : TypeScope} {t : ValueType} (h : (Expr.intRel r x y).inferType Γ = .ok t) :
    ∃ t1 t2 t', x.inferType Γ = .ok t1 ∧ y.inferType Γ = .ok t2 ∧ ValueType.unify t1 t2 = some t' ∧ t'.isNumeric = true ∧
      t = .base .bool := by
  rw [Expr.inferType] at h
  obtain ⟨t1, h1, h⟩ := Outcome.bind_eq_ok.1 h
  obtain ⟨t2, h2, h⟩ := Outcome.bind_eq_ok.1 h
  obtain ⟨t', h3, h⟩ := Outcome.bind_eq_ok.1 h
  simp only [ValueType.unifyI, Outcome.ofOption] at h3
  simp only [ValueType.needNumeric] at h
  split at h3
  · rename_i hu
    cases h3
    split at h
    · rename_i hn
      cases h
      exact ⟨t1, t2, _, h1, h2, hu, hn, rfl⟩
    · cases h
  · cases h3

theorem infer_arith {op : Arith} {x y : Expr} {Γ : TypeScope} {t : ValueType} (h : (Expr.arith op x y).inferType Γ = .ok t) :
    ∃ t1 t2, x.inferType Γ = .ok t1 ∧ y.inferType Γ = .ok t2 ∧ ValueType.arithI op t1 t2 = .ok t := by
  rw [Expr.inferType] at h
  obtain ⟨t1, h1, h⟩ := Outcome.bind_eq_ok.1 h
  obtain ⟨t2, h2, h⟩ := Outcome.bind_eq_ok.1 h
  exact ⟨t1, t2, h1, h2, h⟩

theorem infer_append {x y : Expr} {Γ : TypeScope} {t : ValueType} (h : (Expr.append x y).inferType Γ = .ok t) :
    ∃ t1 t2, x.inferType Γ = .ok t1 ∧ y.inferType Γ = .ok t2 := by
  rw [Expr.inferType] at h
  obtain ⟨t1, h1, h⟩ := Outcome.bind_eq_ok.1 h
  obtain ⟨t2, h2, h⟩ := Outcome.bind_eq_ok.1 h
  exact ⟨t1, t2, h1, h2⟩

theorem infer_range {x y : Expr} {Γ : TypeScope} {t : ValueType} (h : (Expr.enumFromTo x y).inferType Γ = .ok t) :
    ∃ t1 t2 t', x.inferType Γ = .ok t1 ∧ y.inferType Γ = .ok t2 ∧ t1.isNumeric = true ∧ ValueType.unify t1 t2 = some t' ∧
      t = .seq t' := by
  rw [Expr.inferType] at h
  obtain ⟨t1, h1, h⟩ := Outcome.bind_eq_ok.1 h
  obtain ⟨t2, h2, h⟩ := Outcome.bind_eq_ok.1 h
  split at h
  · rename_i hn
    obtain ⟨t', h3, h⟩ := Outcome.bind_eq_ok.1 h
    cases h
    simp only [ValueType.unifyI, Outcome.ofOption] at h3
    split at h3
    · rename_i hu
      cases h3
      exact ⟨t1, t2, _, h1, h2, hn, hu, rfl⟩
    · cases h3
  · cases h

theorem root_bool {e : Expr} {Γ : TypeScope} {t : ValueType} (h : e.inferType Γ = .ok t)
    (hr : root (ofExpr e) = some .logical ∨ root (ofExpr e) = some .equality ∨ root (ofExpr e) = some .order) :
    t = .base .bool := by
  cases e <;> simp only [ofExpr, root, reduceCtorEq, or_self] at hr
  case arith op x y =>
    obtain ⟨t1, t2, _, _, h⟩ := infer_arith h
    cases op <;> simp [Bin.class] at hr <;>
      (simp only [ValueType.arithI] at h; split at h <;> first | (cases h; rfl) | cases h)
  case intRel r x y =>
    obtain ⟨_, _, _, _, _, _, _, rfl⟩ := infer_rel h
    rfl
  all_goals simp [Bin.class] at hr

theorem root_seq {e : Expr} {Γ : TypeScope} {t : ValueType} (h : e.inferType Γ = .ok t)
    (hr : root (ofExpr e) = some .range) : ∃ t', t = .seq t' := by
  cases e <;> simp only [ofExpr, root, reduceCtorEq] at hr
  case enumFromTo x y =>
    obtain ⟨_, _, t', _, _, _, _, rfl⟩ := infer_range h
    exact ⟨t', rfl⟩
  case arith op x y => cases op <;> simp [Bin.class] at hr
  case intRel r x y => cases r <;> simp [Bin.class] at hr
  all_goals simp [Bin.class] at hr

theorem unify_numeric_seq {t1 t' t'' : ValueType} (hn : t1.isNumeric = true) (h : ValueType.unify t1 (.seq t') = some t'') : False := by
  cases t1 <;> simp [ValueType.unify, ValueType.isNumeric] at h hn

theorem not_bool {t1 t2 t : ValueType} (hu : ValueType.unify t1 t2 = some t) (hn : t.isNumeric = true) :
    t1 ≠ .base .bool ∧ t2 ≠ .base .bool := by
  constructor
  · rintro rfl
    rw [unify_bool_left hu] at hn
    cases hn
  · rintro rfl
    rw [unify_bool_right hu] at hn
    cases hn

/-- what types ensure about comparisons and ranges -/
def Calm : Tree Expr Bin Pre Post → Prop
  | .atom a => Whole a
  | .bin o l r => Calm l ∧ Calm r ∧
      match o.class with
      | .equality => root l ≠ some .logical ∧ root r ≠ some .logical
      | .order => (root l ≠ some .logical ∧ root l ≠ some .equality ∧ root l ≠ some .order) ∧
          root r ≠ some .logical ∧ root r ≠ some .equality ∧ root r ≠ some .order
      | .range => root r ≠ some .range
      | _ => True
  | .pre _ e => Calm e
  | .post _ e => Calm e

theorem chains_ne {c : Class} (h : c.chains = true) : c ≠ .logical ∧ c ≠ .equality := by
  cases c <;> simp_all [Class.chains]

theorem root_attach (o : Bin) (l : Tree Expr Bin Pre Post) : ∀ r, root (attach o l r) = some o.class
  | .atom _ => rfl
  | .pre _ _ => rfl
  | .post _ _ => rfl
  | .bin o' a b => by
    rw [attach]
    split
    · rename_i h
      rw [root, h.2]
    · rfl

theorem root_regroup : ∀ e, root (regroup e) = root e
  | .atom _ => rfl
  | .pre _ _ => rfl
  | .post _ _ => rfl
  | .bin o l r => by rw [regroup, root_attach, root]

theorem print_attach (o : Bin) (l : Tree Expr Bin Pre Post) : ∀ r cur,
    treeStyle.print (attach o l r) cur = treeStyle.print (.bin o l r) cur
  | .atom _, _ => rfl
  | .pre _ _, _ => rfl
  | .post _ _, _ => rfl
  | .bin o' a b, cur => by
    rw [attach]
    split
    · rename_i h
      obtain ⟨hl, he⟩ := chains_ne h.1
      rw [print_chain h.2 hl he]
      simp only [Style.print, print_attach o l a]
    · rfl

theorem print_regroup : ∀ e cur, treeStyle.print (regroup e) cur = treeStyle.print e cur
  | .atom _, _ => rfl
  | .pre _ e, cur => by simp only [regroup, Style.print, print_regroup e]
  | .post _ e, cur => by simp only [regroup, Style.print, print_regroup e]
  | .bin o l r, cur => by
    rw [regroup, print_attach]
    simp only [Style.print, print_regroup l, print_regroup r]

theorem Calm.tame : ∀ {e : Tree Expr Bin Pre Post}, Calm e → Leaning e → Tame e
  | .atom _, h, _ => h
  | .pre _ e, h, hl => Calm.tame (e := e) h hl
  | .post _ e, h, hl => Calm.tame (e := e) h hl
  | .bin o l r, h, hl => by
    refine ⟨Calm.tame h.1 hl.1, Calm.tame h.2.1 hl.2.1, ?_⟩
    have h1 := h.2.2
    have h2 := hl.2.2
    revert h1 h2
    cases o.class <;> simp [Class.chains]

theorem attach_calm {o : Bin} {l : Tree Expr Bin Pre Post} (hl : Calm l) : ∀ {r : Tree Expr Bin Pre Post}, Calm r →
    Calm (.bin o l r) → Calm (attach o l r)
  | .atom _, _, h => h
  | .pre _ _, _, h => h
  | .post _ _, _, h => h
  | .bin o' a b, hr, h => by
    rw [attach]
    split
    · rename_i hc
      have ha : Calm (.bin o l a) := ⟨hl, hr.1, by have := hc.1; revert this; cases o.class <;> simp [Class.chains]⟩
      refine ⟨attach_calm hl hr.1 ha, hr.2.1, ?_⟩
      rw [hc.2]
      have := hc.1
      revert this
      cases o.class <;> simp [Class.chains]
    · exact h

theorem regroup_calm : ∀ {e : Tree Expr Bin Pre Post}, Calm e → Calm (regroup e)
  | .atom _, h => h
  | .pre _ e, h => regroup_calm (e := e) h
  | .post _ e, h => regroup_calm (e := e) h
  | .bin o l r, h => by
    rw [regroup]
    refine attach_calm (regroup_calm h.1) (regroup_calm h.2.1) ⟨regroup_calm h.1, regroup_calm h.2.1, ?_⟩
    rw [root_regroup, root_regroup]
    exact h.2.2

theorem attach_leaning {o : Bin} {l : Tree Expr Bin Pre Post} (hl : Leaning l) : ∀ {r : Tree Expr Bin Pre Post}, Leaning r →
    Leaning (attach o l r)
  | .atom _, h => ⟨hl, h, fun _ h => by cases h⟩
  | .pre _ _, h => ⟨hl, h, fun _ h => by cases h⟩
  | .post _ _, h => ⟨hl, h, fun _ h => by cases h⟩
  | .bin o' a b, h => by
    rw [attach]
    split
    · exact ⟨attach_leaning hl h.1, h.2.1, h.2.2⟩
    · rename_i hc
      exact ⟨hl, h, fun hch he => hc ⟨hch, Option.some.inj he⟩⟩

theorem regroup_leaning : ∀ e : Tree Expr Bin Pre Post, Leaning (regroup e)
  | .atom _ => trivial
  | .pre _ e => regroup_leaning e
  | .post _ e => regroup_leaning e
  | .bin _ l r => attach_leaning (regroup_leaning l) (regroup_leaning r)

theorem attach_of_ne {o : Bin} {l r : Tree Expr Bin Pre Post} (h : o.class.chains = true → root r ≠ some o.class) :
    attach o l r = .bin o l r := by
  cases r with
  | bin o' a b => rw [attach, if_neg (fun hc => h hc.1 (congrArg some hc.2))]
  | _ => rfl

theorem regroup_of_leaning : ∀ {e : Tree Expr Bin Pre Post}, Leaning e → regroup e = e
  | .atom _, _ => rfl
  | .pre _ e, h => by rw [regroup, regroup_of_leaning (e := e) h]
  | .post _ e, h => by rw [regroup, regroup_of_leaning (e := e) h]
  | .bin o l r, h => by rw [regroup, regroup_of_leaning h.1, regroup_of_leaning h.2.1, attach_of_ne h.2.2]

/-- typed expressions are calm -/
theorem calm_of_typed (e : Expr) : ∀ (Γ : TypeScope) (t : ValueType), e.inferType Γ = .ok t → Leaves (ofExpr e) →
    Calm (ofExpr e) := by
  fun_induction ofExpr e with
  | case1 op x y ihx ihy =>
    intro Γ t h hl
    obtain ⟨t1, t2, h1, h2, _⟩ := infer_arith h
    refine ⟨ihx _ _ h1 hl.1, ihy _ _ h2 hl.2, ?_⟩
    cases op <;> trivial
  | case2 r x y ihx ihy =>
    intro Γ t h hl
    obtain ⟨t1, t2, t', h1, h2, hu, hn, _⟩ := infer_rel h
    have hb := not_bool hu hn
    have hx := fun hr => hb.1 (root_bool h1 hr)
    have hy := fun hr => hb.2 (root_bool h2 hr)
    refine ⟨ihx _ _ h1 hl.1, ihy _ _ h2 hl.2, ?_⟩
    have hx' := not_or.1 hx
    have hy' := not_or.1 hy
    cases r <;> first
      | exact ⟨hx'.1, hy'.1⟩
      | exact ⟨⟨hx'.1, not_or.1 hx'.2⟩, hy'.1, not_or.1 hy'.2⟩
  | case3 x y ihx ihy =>
    intro Γ t h hl
    obtain ⟨t1, t2, h1, h2⟩ := infer_append h
    exact ⟨ihx _ _ h1 hl.1, ihy _ _ h2 hl.2, trivial⟩
  | case4 x y ihx ihy =>
    intro Γ t h hl
    obtain ⟨t1, t2, t', h1, h2, hn, hu, _⟩ := infer_range h
    refine ⟨ihx _ _ h1 hl.1, ihy _ _ h2 hl.2, ?_⟩
    intro hr
    obtain ⟨t'', rfl⟩ := root_seq h2 hr
    exact unify_numeric_seq hn hu
  | case5 x e ih => intro Γ t h; cases h
  | case6 op x ih =>
    intro Γ t h hl
    rw [Expr.inferType] at h
    obtain ⟨t1, h1, h⟩ := Outcome.bind_eq_ok.1 h
    exact ih _ _ h1 hl
  | case7 w x ih =>
    intro Γ t h hl
    rw [Expr.inferType] at h
    obtain ⟨t1, h1, h⟩ := Outcome.bind_eq_ok.1 h
    exact ih _ _ h1 hl
  | case8 x ih =>
    intro Γ t h hl
    rw [Expr.inferType] at h
    obtain ⟨t1, h1, h⟩ := Outcome.bind_eq_ok.1 h
    exact ih _ _ h1 hl
  | case9 w be x ih =>
    intro Γ t h hl
    rw [Expr.inferType] at h
    obtain ⟨t1, h1, h⟩ := Outcome.bind_eq_ok.1 h
    exact ih _ _ h1 hl
  | case10 s ih =>
    intro Γ t h hl
    rw [Expr.inferType] at h
    obtain ⟨t1, h1, h⟩ := Outcome.bind_eq_ok.1 h
    exact ih _ _ h1 hl
  | case11 s i ih =>
    intro Γ t h hl
    rw [Expr.inferType] at h
    obtain ⟨t1, h1, h⟩ := Outcome.bind_eq_ok.1 h
    exact ih _ _ h1 hl
  | case12 s i n ih =>
    intro Γ t h hl
    rw [Expr.inferType] at h
    obtain ⟨t1, h1, h⟩ := Outcome.bind_eq_ok.1 h
    exact ih _ _ h1 hl
  | case13 s i n ih =>
    intro Γ t h hl
    rw [Expr.inferType] at h
    obtain ⟨t1, h1, h⟩ := Outcome.bind_eq_ok.1 h
    exact ih _ _ h1 hl
  | case14 f s ih =>
    intro Γ t h hl
    rw [Expr.inferType.eq_def] at h
    dsimp only at h
    split at h
    · obtain ⟨t1, h1, h⟩ := Outcome.bind_eq_ok.1 h
      exact ih _ _ h1 hl
    · cases h
  | case15 f a ty s ih =>
    intro Γ t h hl
    rw [Expr.inferType.eq_def] at h
    dsimp only at h
    split at h
    · obtain ⟨t1, h1, h⟩ := Outcome.bind_eq_ok.1 h
      exact ih _ _ h1 hl
    · cases h
  | case16 f a ty s ih =>
    intro Γ t h hl
    rw [Expr.inferType.eq_def] at h
    dsimp only at h
    split at h
    · obtain ⟨t1, h1, h⟩ := Outcome.bind_eq_ok.1 h
      exact ih _ _ h1 hl
    · cases h
  | case17 b f q s ih =>
    intro Γ t h hl
    rw [Expr.inferType.eq_def] at h
    dsimp only at h
    split at h
    · obtain ⟨t1, h1, h⟩ := Outcome.bind_eq_ok.1 h
      exact ih _ _ h1 hl
    · cases h
  | case18 f ty s ih =>
    intro Γ t h hl
    rw [Expr.inferType.eq_def] at h
    dsimp only at h
    split at h
    · obtain ⟨t1, h1, h⟩ := Outcome.bind_eq_ok.1 h
      exact ih _ _ h1 hl
    · cases h
  | case19 n x ih =>
    intro Γ t h hl
    rw [Expr.inferType] at h
    obtain ⟨tc, _, h⟩ := Outcome.bind_eq_ok.1 h
    obtain ⟨_, _, h⟩ := Outcome.bind_eq_ok.1 h
    obtain ⟨t1, h1, h⟩ := Outcome.bind_eq_ok.1 h
    exact ih _ _ h1 hl
  | case20 x ih =>
    intro Γ t h hl
    rw [Expr.inferType] at h
    obtain ⟨t1, h1, h⟩ := Outcome.bind_eq_ok.1 h
    exact ih _ _ h1 hl
  | case21 x i ih =>
    intro Γ t h hl
    rw [Expr.inferType] at h
    obtain ⟨t1, h1, h⟩ := Outcome.bind_eq_ok.1 h
    exact ih _ _ h1 hl
  | case22 x l ih =>
    intro Γ t h hl
    rw [Expr.inferType] at h
    obtain ⟨t1, h1, h⟩ := Outcome.bind_eq_ok.1 h
    exact ih _ _ h1 hl
  | case23 e => exact fun _ _ _ hl => hl

end TreeExpr
end Doodle
