import Verif.Lemmas.TypedTreeOk
import Verif.Lemmas.TypedCompile

/-!
The code generator's compiler accepts what the interpreter's compiler accepts.
-/

namespace Doodle

theorem Expr.Count.bounds_eq {e : Expr} (h : e.Count) : e.bounds = .ok e.typedBounds := by
  induction h with
  | add _ _ ih1 ih2 => simp only [Expr.bounds, Expr.typedBounds, ih1, ih2]; rfl
  | mul _ _ ih1 ih2 => simp only [Expr.bounds, Expr.typedBounds, ih1, ih2]; rfl
  | _ => rfl

theorem Expr.Count.same {e : Expr} (h : e.Count) : e.SameBounds := ⟨_, h.bounds_eq, rfl, rfl⟩
namespace TCompiler

variable {τ : Type}

/-! ### bounds -/

open Bounds

theorem add_min {a a' b b' : Bounds} (h : a.min = a'.min) (h' : b.min = b'.min) : (a.add b).min = (a'.add b').min := by
  unfold Bounds.add Bounds.checkedAdd
  rw [h, h']
  cases Doodle.checkedAdd a'.min b'.min <;> rfl

theorem mul_min {a a' b b' : Bounds} (h : a.min = a'.min) (h' : b.min = b'.min) : (a.mul b).min = (a'.mul b').min := by
  unfold Bounds.mul Bounds.checkedMul
  rw [h, h']
  cases Doodle.checkedMul a'.min b'.min <;> rfl

theorem union_min {a a' b b' : Bounds} (h : a.min = a'.min) (h' : b.min = b'.min) :
    (a.union b).min = (a'.union b').min := by
  unfold Bounds.union
  dsimp only
  rw [h, h']

theorem add_lt (a b : Bounds) : (a.add b).min < usizeCard := by
  unfold Bounds.add Bounds.checkedAdd Doodle.checkedAdd
  by_cases h : a.min + b.min < usizeCard
  · simp only [h, if_true, Option.getD_some]
  · simp only [h, if_false, Option.getD_none, Bounds.any]
    decide

theorem mul_lt (a b : Bounds) : (a.mul b).min < usizeCard := by
  unfold Bounds.mul Bounds.checkedMul Doodle.checkedMul
  by_cases h : a.min * b.min < usizeCard
  · simp only [h, if_true, Option.getD_some]
  · simp only [h, if_false, Option.getD_none, Bounds.any]
    decide

theorem union_lt {a b : Bounds} (h : a.min < usizeCard) : (a.union b).min < usizeCard :=
  Nat.lt_of_le_of_lt (Nat.min_le_left _ _) h

theorem bits_lt {a : Bounds} (h : a.min < usizeCard) : a.bitsToBytes.min < usizeCard := by
  unfold Bounds.bitsToBytes Bounds.divCeil8
  dsimp only
  split <;> omega

theorem zero_add_min {b : Bounds} (h : b.min < usizeCard) : ((Bounds.exact 0).add b).min = b.min := by
  unfold Bounds.add Bounds.checkedAdd Doodle.checkedAdd Bounds.exact
  simp only [Nat.zero_add, h, if_true, Option.getD_some]

theorem typedBounds_lt (e : Expr) : e.typedBounds.min < usizeCard := by
  unfold Expr.typedBounds
  split
  · next w n =>
    refine Nat.lt_of_lt_of_le n.isLt ?_
    cases w <;> decide
  · exact add_lt _ _
  · exact mul_lt _ _
  · show 0 < usizeCard
    decide

/-- lists of bounds with the same least values, all in range -/
def Mins : List Bounds → List Bounds → Prop
  | [], [] => True
  | c :: cs, b :: bs => c.min = b.min ∧ c.min < usizeCard ∧ Mins cs bs
  | _, _ => False

theorem foldl_add_min : ∀ {cs bs : List Bounds} {c b : Bounds}, Mins cs bs → c.min = b.min → c.min < usizeCard →
    (cs.foldl Bounds.add c).min = (bs.foldl Bounds.add b).min ∧ (cs.foldl Bounds.add c).min < usizeCard
  | [], [], _, _, _, h, hl => ⟨h, hl⟩
  | _ :: _, _ :: _, _, _, hm, h, _ => by
    simp only [List.foldl_cons]
    exact foldl_add_min hm.2.2 (add_min h hm.1) (add_lt _ _)
  | [], _ :: _, _, _, h, _, _ => h.elim
  | _ :: _, [], _, _, h, _, _ => h.elim

theorem foldl_union_min : ∀ {cs bs : List Bounds} {c b : Bounds}, Mins cs bs → c.min = b.min → c.min < usizeCard →
    (cs.foldl Bounds.union c).min = (bs.foldl Bounds.union b).min ∧ (cs.foldl Bounds.union c).min < usizeCard
  | [], [], _, _, _, h, hl => ⟨h, hl⟩
  | _ :: _, _ :: _, _, _, hm, h, hl => by
    simp only [List.foldl_cons]
    exact foldl_union_min hm.2.2 (union_min h hm.1) (union_lt hl)
  | [], _ :: _, _, _, h, _, _ => h.elim
  | _ :: _, [], _, _, h, _, _ => h.elim

theorem reduceAdd_min {cs bs : List Bounds} (h : Mins cs bs) :
    (Format.reduceAdd cs).min = (Format.reduceAdd bs).min ∧ (Format.reduceAdd cs).min < usizeCard := by
  match cs, bs, h with
  | [], [], _ => exact ⟨rfl, by decide⟩
  | c :: cs, b :: bs, h => exact foldl_add_min h.2.2 h.1 h.2.1

theorem foldAdd_min {cs bs : List Bounds} (h : Mins cs bs) :
    (Format.reduceAdd cs).min = (bs.foldl Bounds.add (.exact 0)).min ∧ (Format.reduceAdd cs).min < usizeCard := by
  match cs, bs, h with
  | [], [], _ => exact ⟨rfl, by decide⟩
  | c :: cs, b :: bs, h =>
    simp only [List.foldl_cons, Format.reduceAdd]
    refine foldl_add_min h.2.2 ?_ h.2.1
    rw [zero_add_min (by rw [← h.1]; exact h.2.1)]
    exact h.1

theorem reduceUnion_min {cs bs : List Bounds} {b : Bounds} (h : Mins cs bs) (hb : Format.reduceUnion bs = .ok b) :
    ∃ c, Format.reduceUnion cs = .ok c ∧ c.min = b.min ∧ c.min < usizeCard := by
  match cs, bs, h with
  | [], [], _ => cases hb
  | c :: cs, b0 :: bs, h =>
    simp only [Format.reduceUnion, Panicky.ok.injEq] at hb ⊢
    subst hb
    exact ⟨_, rfl, foldl_union_min h.2.2 h.1 h.2.1⟩

theorem item_get {m : Module} {level : Nat} {it i : Item} (h : m.items[level]? = some it) (h' : m.get level = .ok i) :
    i = it := by
  unfold Module.get at h'
  rw [h] at h'
  cases h'
  rfl

mutual
/-- the two compilers find the same least length of a match -/
theorem matchBounds_min {m : Module} (f : TFormat τ) (depth : Nat) (b : Bounds) (hf : f.Fit m)
    (h : f.erase.matchBoundsWith (Format.itemMatchBounds m depth) = .ok b) :
    ∃ c, f.matchBounds = .ok c ∧ c.min = b.min ∧ c.min < usizeCard := by
  match f with
  | .decodeBytes _ _ _ =>
    simp only [TFormat.erase, Format.matchBoundsWith, Panicky.ok.injEq] at h
    subst h
    exact ⟨_, by simp only [TFormat.matchBounds], rfl, by decide⟩
  | .parseFromView _ _ _ =>
    simp only [TFormat.erase, Format.matchBoundsWith, Panicky.ok.injEq] at h
    subst h
    exact ⟨_, by simp only [TFormat.matchBounds], rfl, by decide⟩
  | .compute _ _ =>
    simp only [TFormat.erase, Format.matchBoundsWith, Panicky.ok.injEq] at h
    subst h
    exact ⟨_, by simp only [TFormat.matchBounds], rfl, by decide⟩
  | .peek _ _ =>
    simp only [TFormat.erase, Format.matchBoundsWith, Panicky.ok.injEq] at h
    subst h
    exact ⟨_, by simp only [TFormat.matchBounds], rfl, by decide⟩
  | .peekNot _ _ =>
    simp only [TFormat.erase, Format.matchBoundsWith, Panicky.ok.injEq] at h
    subst h
    exact ⟨_, by simp only [TFormat.matchBounds], rfl, by decide⟩
  | .endOfInput =>
    simp only [TFormat.erase, Format.matchBoundsWith, Panicky.ok.injEq] at h
    subst h
    exact ⟨_, by simp only [TFormat.matchBounds], rfl, by decide⟩
  | .pos _ =>
    simp only [TFormat.erase, Format.matchBoundsWith, Panicky.ok.injEq] at h
    subst h
    exact ⟨_, by simp only [TFormat.matchBounds], rfl, by decide⟩
  | .fail =>
    simp only [TFormat.erase, Format.matchBoundsWith, Panicky.ok.injEq] at h
    subst h
    exact ⟨_, by simp only [TFormat.matchBounds], rfl, by decide⟩
  | .byte _ =>
    simp only [TFormat.erase, Format.matchBoundsWith, Panicky.ok.injEq] at h
    subst h
    exact ⟨_, by simp only [TFormat.matchBounds], rfl, by decide⟩
  | .repeat_ _ _ =>
    simp only [TFormat.erase, Format.matchBoundsWith, Panicky.ok.injEq] at h
    subst h
    exact ⟨_, by simp only [TFormat.matchBounds], rfl, by decide⟩
  | .repeatUntilSeq _ _ _ =>
    simp only [TFormat.erase, Format.matchBoundsWith, Panicky.ok.injEq] at h
    subst h
    exact ⟨_, by simp only [TFormat.matchBounds], rfl, by decide⟩
  | .accumUntil _ _ _ _ _ _ =>
    simp only [TFormat.erase, Format.matchBoundsWith, Panicky.ok.injEq] at h
    subst h
    exact ⟨_, by simp only [TFormat.matchBounds], rfl, by decide⟩
  | .forEach _ _ _ _ =>
    simp only [TFormat.erase, Format.matchBoundsWith, Panicky.ok.injEq] at h
    subst h
    exact ⟨_, by simp only [TFormat.matchBounds], rfl, by decide⟩
  | .skipRemainder =>
    simp only [TFormat.erase, Format.matchBoundsWith, Panicky.ok.injEq] at h
    subst h
    exact ⟨_, by simp only [TFormat.matchBounds], rfl, by decide⟩
  | .withRelativeOffset _ _ _ _ =>
    simp only [TFormat.erase, Format.matchBoundsWith, Panicky.ok.injEq] at h
    subst h
    exact ⟨_, by simp only [TFormat.matchBounds], rfl, by decide⟩
  | .apply _ _ =>
    simp only [TFormat.erase, Format.matchBoundsWith, Panicky.ok.injEq] at h
    subst h
    exact ⟨_, by simp only [TFormat.matchBounds], rfl, by decide⟩
  | .liftedNone _ =>
    simp only [TFormat.erase, Format.matchBoundsWith, Panicky.ok.injEq] at h
    subst h
    exact ⟨_, by simp only [TFormat.matchBounds], rfl, by decide⟩
  | .captureBytes _ _ _ =>
    simp only [TFormat.erase, Format.matchBoundsWith, Panicky.ok.injEq] at h
    subst h
    exact ⟨_, by simp only [TFormat.matchBounds], rfl, by decide⟩
  | .readArray _ _ _ _ =>
    simp only [TFormat.erase, Format.matchBoundsWith, Panicky.ok.injEq] at h
    subst h
    exact ⟨_, by simp only [TFormat.matchBounds], rfl, by decide⟩
  | .reifyView _ _ =>
    simp only [TFormat.erase, Format.matchBoundsWith, Panicky.ok.injEq] at h
    subst h
    exact ⟨_, by simp only [TFormat.matchBounds], rfl, by decide⟩
  | .phantom _ _ =>
    simp only [TFormat.erase, Format.matchBoundsWith, Panicky.ok.injEq] at h
    subst h
    exact ⟨_, by simp only [TFormat.matchBounds], rfl, by decide⟩
  | .variant _ _ f =>
    simp only [TFormat.erase, Format.matchBoundsWith] at h
    simp only [TFormat.matchBounds]
    exact matchBounds_min f depth b hf.2 h
  | .map _ f _ =>
    simp only [TFormat.erase, Format.matchBoundsWith] at h
    simp only [TFormat.matchBounds]
    exact matchBounds_min f depth b hf h
  | .where_ _ f _ _ =>
    simp only [TFormat.erase, Format.matchBoundsWith] at h
    simp only [TFormat.matchBounds]
    exact matchBounds_min f depth b hf h
  | .dynamic _ _ _ _ f =>
    simp only [TFormat.erase, Format.matchBoundsWith] at h
    simp only [TFormat.matchBounds]
    exact matchBounds_min f depth b hf h
  | .let_ _ _ _ f =>
    simp only [TFormat.erase, Format.matchBoundsWith] at h
    simp only [TFormat.matchBounds]
    exact matchBounds_min f depth b hf h
  | .letView _ _ f =>
    simp only [TFormat.erase, Format.matchBoundsWith] at h
    simp only [TFormat.matchBounds]
    exact matchBounds_min f depth b hf h
  | .enforce _ f =>
    simp only [TFormat.erase, Format.matchBoundsWith] at h
    simp only [TFormat.matchBounds]
    exact matchBounds_min f depth b hf h
  | .permit _ f _ =>
    simp only [TFormat.erase, Format.matchBoundsWith] at h
    simp only [TFormat.matchBounds]
    exact matchBounds_min f depth b hf h
  | .hint _ f =>
    simp only [TFormat.erase, Format.matchBoundsWith] at h
    simp only [TFormat.matchBounds]
    exact matchBounds_min f depth b hf h
  | .liftedSome _ f =>
    simp only [TFormat.erase, Format.matchBoundsWith] at h
    simp only [TFormat.matchBounds]
    exact matchBounds_min f depth b hf h
  | .align n =>
    have hf : 2 ≤ n := hf
    have h0 : ¬ n = 0 := by omega
    simp only [TFormat.erase, Format.matchBoundsWith, h0, if_false, Panicky.ok.injEq] at h
    simp only [TFormat.matchBounds, h0, if_false]
    subst h
    exact ⟨_, rfl, rfl, (by decide : 0 < usizeCard)⟩
  | .slice _ e _ =>
    obtain ⟨⟨b0, hb, _, hmin⟩, _⟩ := hf
    simp only [TFormat.erase, Format.matchBoundsWith, hb, Panicky.ok.injEq] at h
    simp only [TFormat.matchBounds]
    subst h
    exact ⟨_, rfl, hmin.symm, typedBounds_lt e⟩
  | .formatCall _ level args views d =>
    obtain ⟨it, hi, he, _, _, hd⟩ := hf
    simp only [TFormat.erase, Format.matchBoundsWith] at h
    simp only [TFormat.matchBounds]
    cases depth with
    | zero => cases h
    | succ depth =>
      simp only [Format.itemMatchBounds] at h
      obtain ⟨i, h1, h2⟩ := Panicky.bind_eq_ok.1 h
      cases item_get hi h1
      rw [← he] at h2
      exact matchBounds_min d depth b hd h2
  | .repeatCount _ e f =>
    obtain ⟨⟨b0, hb, _, hmin⟩, hf⟩ := hf
    simp only [TFormat.erase, Format.matchBoundsWith, hb] at h
    obtain ⟨b1, h1, h2⟩ := Panicky.bind_eq_ok.1 h
    cases h2
    obtain ⟨c1, e1, m1, l1⟩ := matchBounds_min f depth b1 hf h1
    refine ⟨c1.mul e.typedBounds, by simp only [TFormat.matchBounds, e1]; rfl, mul_min m1 hmin.symm, mul_lt _ _⟩
  | .repeatBetween _ x y f =>
    obtain ⟨⟨b0, hb, _, hmin⟩, ⟨c0, hc, _, hmin2⟩, hf⟩ := hf
    simp only [TFormat.erase, Format.matchBoundsWith, hb, hc] at h
    obtain ⟨b1, h1, h2⟩ := Panicky.bind_eq_ok.1 h
    cases h2
    obtain ⟨c1, e1, m1, l1⟩ := matchBounds_min f depth b1 hf h1
    exact ⟨_, by simp only [TFormat.matchBounds, e1]; rfl, mul_min m1 (union_min hmin.symm hmin2.symm), mul_lt _ _⟩
  | .repeat1 _ f =>
    simp only [TFormat.erase, Format.matchBoundsWith] at h
    obtain ⟨b1, h1, h2⟩ := Panicky.bind_eq_ok.1 h
    cases h2
    obtain ⟨c1, e1, m1, l1⟩ := matchBounds_min f depth b1 hf h1
    exact ⟨_, by simp only [TFormat.matchBounds, e1]; rfl, mul_min m1 rfl, mul_lt _ _⟩
  | .repeatUntilLast _ _ f =>
    simp only [TFormat.erase, Format.matchBoundsWith] at h
    obtain ⟨b1, h1, h2⟩ := Panicky.bind_eq_ok.1 h
    cases h2
    obtain ⟨c1, e1, m1, l1⟩ := matchBounds_min f depth b1 hf h1
    exact ⟨_, by simp only [TFormat.matchBounds, e1]; rfl, mul_min m1 rfl, mul_lt _ _⟩
  | .bits _ f =>
    simp only [TFormat.erase, Format.matchBoundsWith] at h
    obtain ⟨b1, h1, h2⟩ := Panicky.bind_eq_ok.1 h
    cases h2
    obtain ⟨c1, e1, m1, l1⟩ := matchBounds_min f depth b1 hf h1
    exact ⟨_, by simp only [TFormat.matchBounds, e1]; rfl, by unfold Bounds.bitsToBytes; dsimp only; rw [m1], bits_lt l1⟩
  | .maybe _ _ f =>
    simp only [TFormat.erase, Format.matchBoundsWith] at h
    obtain ⟨b1, h1, h2⟩ := Panicky.bind_eq_ok.1 h
    cases h2
    obtain ⟨c1, e1, m1, l1⟩ := matchBounds_min f depth b1 hf.2 h1
    exact ⟨_, by simp only [TFormat.matchBounds, e1]; rfl, union_min rfl m1, union_lt (by decide)⟩
  | .letFormat _ f _ g =>
    simp only [TFormat.erase, Format.matchBoundsWith] at h
    obtain ⟨b1, h1, h2⟩ := Panicky.bind_eq_ok.1 h
    obtain ⟨b2, h3, h4⟩ := Panicky.bind_eq_ok.1 h2
    cases h4
    obtain ⟨c1, e1, m1, l1⟩ := matchBounds_min f depth b1 hf.1 h1
    obtain ⟨c2, e2, m2, l2⟩ := matchBounds_min g depth b2 hf.2 h3
    exact ⟨_, by simp only [TFormat.matchBounds, e1, e2]; rfl, add_min m1 m2, add_lt _ _⟩
  | .monadSeq _ f g =>
    simp only [TFormat.erase, Format.matchBoundsWith] at h
    obtain ⟨b1, h1, h2⟩ := Panicky.bind_eq_ok.1 h
    obtain ⟨b2, h3, h4⟩ := Panicky.bind_eq_ok.1 h2
    cases h4
    obtain ⟨c1, e1, m1, l1⟩ := matchBounds_min f depth b1 hf.1 h1
    obtain ⟨c2, e2, m2, l2⟩ := matchBounds_min g depth b2 hf.2 h3
    exact ⟨_, by simp only [TFormat.matchBounds, e1, e2]; rfl, add_min m1 m2, add_lt _ _⟩
  | .union _ fs =>
    simp only [TFormat.erase, Format.matchBoundsWith] at h
    obtain ⟨bs, h1, h2⟩ := Panicky.bind_eq_ok.1 h
    obtain ⟨cs, e1, hm⟩ := matchBoundsList_min fs depth bs hf h1
    simp only [TFormat.matchBounds, e1]
    exact reduceUnion_min hm h2
  | .unionNondet _ fs =>
    simp only [TFormat.erase, Format.matchBoundsWith] at h
    obtain ⟨bs, h1, h2⟩ := Panicky.bind_eq_ok.1 h
    obtain ⟨cs, e1, hm⟩ := matchBoundsList_min fs depth bs hf h1
    simp only [TFormat.matchBounds, e1]
    exact reduceUnion_min hm h2
  | .match_ _ _ fs =>
    simp only [TFormat.erase, Format.matchBoundsWith] at h
    obtain ⟨bs, h1, h2⟩ := Panicky.bind_eq_ok.1 h
    obtain ⟨cs, e1, hm⟩ := matchBoundsBranches_min fs depth bs hf h1
    simp only [TFormat.matchBounds, e1]
    exact reduceUnion_min hm h2
  | .tuple _ fs =>
    simp only [TFormat.erase, Format.matchBoundsWith] at h
    obtain ⟨bs, h1, h2⟩ := Panicky.bind_eq_ok.1 h
    cases h2
    obtain ⟨cs, e1, hm⟩ := matchBoundsList_min fs depth bs hf h1
    exact ⟨_, by simp only [TFormat.matchBounds, e1]; rfl, reduceAdd_min hm⟩
  | .sequence _ fs =>
    simp only [TFormat.erase, Format.matchBoundsWith] at h
    obtain ⟨bs, h1, h2⟩ := Panicky.bind_eq_ok.1 h
    cases h2
    obtain ⟨cs, e1, hm⟩ := matchBoundsList_min fs depth bs hf h1
    exact ⟨_, by simp only [TFormat.matchBounds, e1]; rfl, foldAdd_min hm⟩

theorem matchBoundsList_min {m : Module} (fs : List (TFormat τ)) (depth : Nat) (bs : List Bounds)
    (hf : TFormat.FitList m fs)
    (h : Format.matchBoundsList (Format.itemMatchBounds m depth) (TFormat.eraseList fs) = .ok bs) :
    ∃ cs, TFormat.matchBoundsList fs = .ok cs ∧ Mins cs bs := by
  match fs with
  | [] =>
    simp only [TFormat.eraseList, Format.matchBoundsList, Panicky.ok.injEq] at h
    subst h
    exact ⟨[], by simp only [TFormat.matchBoundsList], trivial⟩
  | f :: fs =>
    simp only [TFormat.eraseList, Format.matchBoundsList] at h
    obtain ⟨b1, h1, h2⟩ := Panicky.bind_eq_ok.1 h
    obtain ⟨bs1, h3, h4⟩ := Panicky.bind_eq_ok.1 h2
    cases h4
    obtain ⟨c1, e1, m1, l1⟩ := matchBounds_min f depth b1 hf.1 h1
    obtain ⟨cs, e2, m2⟩ := matchBoundsList_min fs depth bs1 hf.2 h3
    exact ⟨c1 :: cs, by simp only [TFormat.matchBoundsList, e1, e2]; rfl, m1, l1, m2⟩

theorem matchBoundsBranches_min {m : Module} (fs : List (Pattern × TFormat τ)) (depth : Nat) (bs : List Bounds)
    (hf : TFormat.FitBranches m fs)
    (h : Format.matchBoundsBranches (Format.itemMatchBounds m depth) (TFormat.eraseBranches fs) = .ok bs) :
    ∃ cs, TFormat.matchBoundsBranches fs = .ok cs ∧ Mins cs bs := by
  match fs with
  | [] =>
    simp only [TFormat.eraseBranches, Format.matchBoundsBranches, Panicky.ok.injEq] at h
    subst h
    exact ⟨[], by simp only [TFormat.matchBoundsBranches], trivial⟩
  | (p, f) :: fs =>
    simp only [TFormat.eraseBranches, Format.matchBoundsBranches] at h
    obtain ⟨b1, h1, h2⟩ := Panicky.bind_eq_ok.1 h
    obtain ⟨bs1, h3, h4⟩ := Panicky.bind_eq_ok.1 h2
    cases h4
    obtain ⟨c1, e1, m1, l1⟩ := matchBounds_min f depth b1 hf.1 h1
    obtain ⟨cs, e2, m2⟩ := matchBoundsBranches_min fs depth bs1 hf.2 h3
    exact ⟨c1 :: cs, by simp only [TFormat.matchBoundsBranches, e1, e2]; rfl, m1, l1, m2⟩
end

theorem nonNull {m : Module} {f : TFormat τ} (hf : f.Fit m) (h : f.erase.isNullable m = .ok false) :
    f.isNullable = .ok false := by
  unfold Format.isNullable Format.matchBounds at h
  obtain ⟨b, h1, h2⟩ := Panicky.bind_eq_ok.1 h
  obtain ⟨c, e, hm, _⟩ := matchBounds_min f _ b hf h1
  unfold TFormat.isNullable
  rw [e]
  simp only [Panicky.ok.injEq] at h2
  show Panicky.ok (c.min == 0) = _
  rw [hm, h2]

mutual
theorem matchBounds_eq {m : Module} (f : TFormat τ) (depth : Nat) (b : Bounds) (hf : f.Fit m) (ha : f.Alike)
    (h : f.erase.matchBoundsWith (Format.itemMatchBounds m depth) = .ok b) : f.matchBounds = .ok b := by
  match f with
  | .decodeBytes _ _ _ =>
    simp only [TFormat.erase, Format.matchBoundsWith] at h
    simp only [TFormat.matchBounds]
    exact h
  | .parseFromView _ _ _ =>
    simp only [TFormat.erase, Format.matchBoundsWith] at h
    simp only [TFormat.matchBounds]
    exact h
  | .compute _ _ =>
    simp only [TFormat.erase, Format.matchBoundsWith] at h
    simp only [TFormat.matchBounds]
    exact h
  | .endOfInput =>
    simp only [TFormat.erase, Format.matchBoundsWith] at h
    simp only [TFormat.matchBounds]
    exact h
  | .pos _ =>
    simp only [TFormat.erase, Format.matchBoundsWith] at h
    simp only [TFormat.matchBounds]
    exact h
  | .fail =>
    simp only [TFormat.erase, Format.matchBoundsWith] at h
    simp only [TFormat.matchBounds]
    exact h
  | .byte _ =>
    simp only [TFormat.erase, Format.matchBoundsWith] at h
    simp only [TFormat.matchBounds]
    exact h
  | .repeat_ _ _ =>
    simp only [TFormat.erase, Format.matchBoundsWith] at h
    simp only [TFormat.matchBounds]
    exact h
  | .repeatUntilSeq _ _ _ =>
    simp only [TFormat.erase, Format.matchBoundsWith] at h
    simp only [TFormat.matchBounds]
    exact h
  | .accumUntil _ _ _ _ _ _ =>
    simp only [TFormat.erase, Format.matchBoundsWith] at h
    simp only [TFormat.matchBounds]
    exact h
  | .forEach _ _ _ _ =>
    simp only [TFormat.erase, Format.matchBoundsWith] at h
    simp only [TFormat.matchBounds]
    exact h
  | .withRelativeOffset _ _ _ _ =>
    simp only [TFormat.erase, Format.matchBoundsWith] at h
    simp only [TFormat.matchBounds]
    exact h
  | .apply _ _ =>
    simp only [TFormat.erase, Format.matchBoundsWith] at h
    simp only [TFormat.matchBounds]
    exact h
  | .liftedNone _ =>
    simp only [TFormat.erase, Format.matchBoundsWith] at h
    simp only [TFormat.matchBounds]
    exact h
  | .captureBytes _ _ _ =>
    simp only [TFormat.erase, Format.matchBoundsWith] at h
    simp only [TFormat.matchBounds]
    exact h
  | .readArray _ _ _ _ =>
    simp only [TFormat.erase, Format.matchBoundsWith] at h
    simp only [TFormat.matchBounds]
    exact h
  | .reifyView _ _ =>
    simp only [TFormat.erase, Format.matchBoundsWith] at h
    simp only [TFormat.matchBounds]
    exact h
  | .phantom _ _ =>
    simp only [TFormat.erase, Format.matchBoundsWith] at h
    simp only [TFormat.matchBounds]
    exact h
  | .peek _ _ =>
    simp only [TFormat.erase, Format.matchBoundsWith] at h
    simp only [TFormat.matchBounds]
    exact h
  | .peekNot _ _ =>
    simp only [TFormat.erase, Format.matchBoundsWith] at h
    simp only [TFormat.matchBounds]
    exact h
  | .variant _ _ f =>
    simp only [TFormat.erase, Format.matchBoundsWith] at h
    simp only [TFormat.matchBounds]
    exact matchBounds_eq f depth b hf.2 ha h
  | .map _ f _ =>
    simp only [TFormat.erase, Format.matchBoundsWith] at h
    simp only [TFormat.matchBounds]
    exact matchBounds_eq f depth b hf ha h
  | .where_ _ f _ _ =>
    simp only [TFormat.erase, Format.matchBoundsWith] at h
    simp only [TFormat.matchBounds]
    exact matchBounds_eq f depth b hf ha h
  | .dynamic _ _ _ _ f =>
    simp only [TFormat.erase, Format.matchBoundsWith] at h
    simp only [TFormat.matchBounds]
    exact matchBounds_eq f depth b hf ha h
  | .let_ _ _ _ f =>
    simp only [TFormat.erase, Format.matchBoundsWith] at h
    simp only [TFormat.matchBounds]
    exact matchBounds_eq f depth b hf ha h
  | .letView _ _ f =>
    simp only [TFormat.erase, Format.matchBoundsWith] at h
    simp only [TFormat.matchBounds]
    exact matchBounds_eq f depth b hf ha h
  | .enforce _ f =>
    simp only [TFormat.erase, Format.matchBoundsWith] at h
    simp only [TFormat.matchBounds]
    exact matchBounds_eq f depth b hf ha h
  | .permit _ f _ =>
    simp only [TFormat.erase, Format.matchBoundsWith] at h
    simp only [TFormat.matchBounds]
    exact matchBounds_eq f depth b hf ha h
  | .hint _ f =>
    simp only [TFormat.erase, Format.matchBoundsWith] at h
    simp only [TFormat.matchBounds]
    exact matchBounds_eq f depth b hf ha h
  | .liftedSome _ f =>
    simp only [TFormat.erase, Format.matchBoundsWith] at h
    simp only [TFormat.matchBounds]
    exact matchBounds_eq f depth b hf ha h
  | .align n =>
    simp only [TFormat.erase, Format.matchBoundsWith] at h
    simp only [TFormat.matchBounds]
    exact h
  | .sequence _ _ => exact ha.elim
  | .skipRemainder => exact ha.elim
  | .slice _ e _ =>
    have ha : e.bounds = .ok e.typedBounds := ha
    simp only [TFormat.erase, Format.matchBoundsWith, ha] at h
    simp only [TFormat.matchBounds]
    exact h
  | .formatCall _ level args views d =>
    obtain ⟨it, hi, he, _, _, hd⟩ := hf
    simp only [TFormat.erase, Format.matchBoundsWith] at h
    simp only [TFormat.matchBounds]
    cases depth with
    | zero => cases h
    | succ depth =>
      simp only [Format.itemMatchBounds] at h
      obtain ⟨i, h1, h2⟩ := Panicky.bind_eq_ok.1 h
      cases item_get hi h1
      rw [← he] at h2
      exact matchBounds_eq d depth b hd ha h2
  | .repeatCount _ e f =>
    have hb := ha.1
    simp only [TFormat.erase, Format.matchBoundsWith, hb] at h
    obtain ⟨b1, h1, h2⟩ := Panicky.bind_eq_ok.1 h
    cases h2
    simp only [TFormat.matchBounds, matchBounds_eq f depth b1 hf.2 ha.2 h1]
    rfl
  | .repeatBetween _ x y f =>
    obtain ⟨hb, hc, ha⟩ := ha
    simp only [TFormat.erase, Format.matchBoundsWith, hb, hc] at h
    obtain ⟨b1, h1, h2⟩ := Panicky.bind_eq_ok.1 h
    cases h2
    simp only [TFormat.matchBounds, matchBounds_eq f depth b1 hf.2.2 ha h1]
    rfl
  | .repeat1 _ f =>
    simp only [TFormat.erase, Format.matchBoundsWith] at h
    obtain ⟨b1, h1, h2⟩ := Panicky.bind_eq_ok.1 h
    cases h2
    simp only [TFormat.matchBounds, matchBounds_eq f depth b1 hf ha h1]
    rfl
  | .repeatUntilLast _ _ f =>
    simp only [TFormat.erase, Format.matchBoundsWith] at h
    obtain ⟨b1, h1, h2⟩ := Panicky.bind_eq_ok.1 h
    cases h2
    simp only [TFormat.matchBounds, matchBounds_eq f depth b1 hf ha h1]
    rfl
  | .bits _ f =>
    simp only [TFormat.erase, Format.matchBoundsWith] at h
    obtain ⟨b1, h1, h2⟩ := Panicky.bind_eq_ok.1 h
    cases h2
    simp only [TFormat.matchBounds, matchBounds_eq f depth b1 hf ha h1]
    rfl
  | .maybe _ _ f =>
    simp only [TFormat.erase, Format.matchBoundsWith] at h
    obtain ⟨b1, h1, h2⟩ := Panicky.bind_eq_ok.1 h
    cases h2
    simp only [TFormat.matchBounds, matchBounds_eq f depth b1 hf.2 ha h1]
    rfl
  | .letFormat _ f _ g =>
    simp only [TFormat.erase, Format.matchBoundsWith] at h
    obtain ⟨b1, h1, h2⟩ := Panicky.bind_eq_ok.1 h
    obtain ⟨b2, h3, h4⟩ := Panicky.bind_eq_ok.1 h2
    cases h4
    simp only [TFormat.matchBounds, matchBounds_eq f depth b1 hf.1 ha.1 h1, matchBounds_eq g depth b2 hf.2 ha.2 h3]
    rfl
  | .monadSeq _ f g =>
    simp only [TFormat.erase, Format.matchBoundsWith] at h
    obtain ⟨b1, h1, h2⟩ := Panicky.bind_eq_ok.1 h
    obtain ⟨b2, h3, h4⟩ := Panicky.bind_eq_ok.1 h2
    cases h4
    simp only [TFormat.matchBounds, matchBounds_eq f depth b1 hf.1 ha.1 h1, matchBounds_eq g depth b2 hf.2 ha.2 h3]
    rfl
  | .union _ fs =>
    simp only [TFormat.erase, Format.matchBoundsWith] at h
    obtain ⟨bs, h1, h2⟩ := Panicky.bind_eq_ok.1 h
    simp only [TFormat.matchBounds, matchBoundsList_eq fs depth bs hf ha h1]
    exact h2
  | .unionNondet _ fs =>
    simp only [TFormat.erase, Format.matchBoundsWith] at h
    obtain ⟨bs, h1, h2⟩ := Panicky.bind_eq_ok.1 h
    simp only [TFormat.matchBounds, matchBoundsList_eq fs depth bs hf ha h1]
    exact h2
  | .match_ _ _ fs =>
    simp only [TFormat.erase, Format.matchBoundsWith] at h
    obtain ⟨bs, h1, h2⟩ := Panicky.bind_eq_ok.1 h
    simp only [TFormat.matchBounds, matchBoundsBranches_eq fs depth bs hf ha h1]
    exact h2
  | .tuple _ fs =>
    simp only [TFormat.erase, Format.matchBoundsWith] at h
    obtain ⟨bs, h1, h2⟩ := Panicky.bind_eq_ok.1 h
    simp only [TFormat.matchBounds, matchBoundsList_eq fs depth bs hf ha h1]
    exact h2

theorem matchBoundsList_eq {m : Module} (fs : List (TFormat τ)) (depth : Nat) (bs : List Bounds)
    (hf : TFormat.FitList m fs) (ha : TFormat.AlikeList fs)
    (h : Format.matchBoundsList (Format.itemMatchBounds m depth) (TFormat.eraseList fs) = .ok bs) : TFormat.matchBoundsList fs = .ok bs := by
  match fs with
  | [] =>
    simp only [TFormat.eraseList, Format.matchBoundsList] at h
    simp only [TFormat.matchBoundsList]
    exact h
  | f :: fs =>
    simp only [TFormat.eraseList, Format.matchBoundsList] at h
    obtain ⟨b1, h1, h2⟩ := Panicky.bind_eq_ok.1 h
    obtain ⟨bs1, h3, h4⟩ := Panicky.bind_eq_ok.1 h2
    cases h4
    simp only [TFormat.matchBoundsList, matchBounds_eq f depth b1 hf.1 ha.1 h1, matchBoundsList_eq fs depth bs1 hf.2 ha.2 h3]
    rfl

theorem matchBoundsBranches_eq {m : Module} (fs : List (Pattern × TFormat τ)) (depth : Nat) (bs : List Bounds)
    (hf : TFormat.FitBranches m fs) (ha : TFormat.AlikeBranches fs)
    (h : Format.matchBoundsBranches (Format.itemMatchBounds m depth) (TFormat.eraseBranches fs) = .ok bs) : TFormat.matchBoundsBranches fs = .ok bs := by
  match fs with
  | [] =>
    simp only [TFormat.eraseBranches, Format.matchBoundsBranches] at h
    simp only [TFormat.matchBoundsBranches]
    exact h
  | (p, f) :: fs =>
    simp only [TFormat.eraseBranches, Format.matchBoundsBranches] at h
    obtain ⟨b1, h1, h2⟩ := Panicky.bind_eq_ok.1 h
    obtain ⟨bs1, h3, h4⟩ := Panicky.bind_eq_ok.1 h2
    cases h4
    simp only [TFormat.matchBoundsBranches, matchBounds_eq f depth b1 hf.1 ha.1 h1, matchBoundsBranches_eq fs depth bs1 hf.2 ha.2 h3]
    rfl
end

mutual
theorem lookaheadBounds_eq {m : Module} (f : TFormat τ) (depth : Nat) (b : Bounds) (hf : f.Fit m) (ha : f.Alike)
    (h : f.erase.lookaheadBoundsWith (Format.itemMatchBounds m m.items.length) (Format.itemLookaheadBounds m depth) = .ok b) : f.lookaheadBounds = .ok b := by
  match f with
  | .decodeBytes _ _ _ =>
    simp only [TFormat.erase, Format.lookaheadBoundsWith] at h
    simp only [TFormat.lookaheadBounds]
    exact h
  | .parseFromView _ _ _ =>
    simp only [TFormat.erase, Format.lookaheadBoundsWith] at h
    simp only [TFormat.lookaheadBounds]
    exact h
  | .compute _ _ =>
    simp only [TFormat.erase, Format.lookaheadBoundsWith] at h
    simp only [TFormat.lookaheadBounds]
    exact h
  | .endOfInput =>
    simp only [TFormat.erase, Format.lookaheadBoundsWith] at h
    simp only [TFormat.lookaheadBounds]
    exact h
  | .pos _ =>
    simp only [TFormat.erase, Format.lookaheadBoundsWith] at h
    simp only [TFormat.lookaheadBounds]
    exact h
  | .fail =>
    simp only [TFormat.erase, Format.lookaheadBoundsWith] at h
    simp only [TFormat.lookaheadBounds]
    exact h
  | .byte _ =>
    simp only [TFormat.erase, Format.lookaheadBoundsWith] at h
    simp only [TFormat.lookaheadBounds]
    exact h
  | .repeat_ _ _ =>
    simp only [TFormat.erase, Format.lookaheadBoundsWith] at h
    simp only [TFormat.lookaheadBounds]
    exact h
  | .repeatUntilSeq _ _ _ =>
    simp only [TFormat.erase, Format.lookaheadBoundsWith] at h
    simp only [TFormat.lookaheadBounds]
    exact h
  | .accumUntil _ _ _ _ _ _ =>
    simp only [TFormat.erase, Format.lookaheadBoundsWith] at h
    simp only [TFormat.lookaheadBounds]
    exact h
  | .forEach _ _ _ _ =>
    simp only [TFormat.erase, Format.lookaheadBoundsWith] at h
    simp only [TFormat.lookaheadBounds]
    exact h
  | .withRelativeOffset _ _ _ _ =>
    simp only [TFormat.erase, Format.lookaheadBoundsWith] at h
    simp only [TFormat.lookaheadBounds]
    exact h
  | .apply _ _ =>
    simp only [TFormat.erase, Format.lookaheadBoundsWith] at h
    simp only [TFormat.lookaheadBounds]
    exact h
  | .liftedNone _ =>
    simp only [TFormat.erase, Format.lookaheadBoundsWith] at h
    simp only [TFormat.lookaheadBounds]
    exact h
  | .captureBytes _ _ _ =>
    simp only [TFormat.erase, Format.lookaheadBoundsWith] at h
    simp only [TFormat.lookaheadBounds]
    exact h
  | .readArray _ _ _ _ =>
    simp only [TFormat.erase, Format.lookaheadBoundsWith] at h
    simp only [TFormat.lookaheadBounds]
    exact h
  | .reifyView _ _ =>
    simp only [TFormat.erase, Format.lookaheadBoundsWith] at h
    simp only [TFormat.lookaheadBounds]
    exact h
  | .phantom _ _ =>
    simp only [TFormat.erase, Format.lookaheadBoundsWith] at h
    simp only [TFormat.lookaheadBounds]
    exact h
  | .variant _ _ f =>
    simp only [TFormat.erase, Format.lookaheadBoundsWith] at h
    simp only [TFormat.lookaheadBounds]
    exact lookaheadBounds_eq f depth b hf.2 ha h
  | .map _ f _ =>
    simp only [TFormat.erase, Format.lookaheadBoundsWith] at h
    simp only [TFormat.lookaheadBounds]
    exact lookaheadBounds_eq f depth b hf ha h
  | .where_ _ f _ _ =>
    simp only [TFormat.erase, Format.lookaheadBoundsWith] at h
    simp only [TFormat.lookaheadBounds]
    exact lookaheadBounds_eq f depth b hf ha h
  | .dynamic _ _ _ _ f =>
    simp only [TFormat.erase, Format.lookaheadBoundsWith] at h
    simp only [TFormat.lookaheadBounds]
    exact lookaheadBounds_eq f depth b hf ha h
  | .let_ _ _ _ f =>
    simp only [TFormat.erase, Format.lookaheadBoundsWith] at h
    simp only [TFormat.lookaheadBounds]
    exact lookaheadBounds_eq f depth b hf ha h
  | .letView _ _ f =>
    simp only [TFormat.erase, Format.lookaheadBoundsWith] at h
    simp only [TFormat.lookaheadBounds]
    exact lookaheadBounds_eq f depth b hf ha h
  | .enforce _ f =>
    simp only [TFormat.erase, Format.lookaheadBoundsWith] at h
    simp only [TFormat.lookaheadBounds]
    exact lookaheadBounds_eq f depth b hf ha h
  | .permit _ f _ =>
    simp only [TFormat.erase, Format.lookaheadBoundsWith] at h
    simp only [TFormat.lookaheadBounds]
    exact lookaheadBounds_eq f depth b hf ha h
  | .hint _ f =>
    simp only [TFormat.erase, Format.lookaheadBoundsWith] at h
    simp only [TFormat.lookaheadBounds]
    exact lookaheadBounds_eq f depth b hf ha h
  | .liftedSome _ f =>
    simp only [TFormat.erase, Format.lookaheadBoundsWith] at h
    simp only [TFormat.lookaheadBounds]
    exact lookaheadBounds_eq f depth b hf ha h
  | .peek _ f =>
    simp only [TFormat.erase, Format.lookaheadBoundsWith] at h
    simp only [TFormat.lookaheadBounds]
    exact lookaheadBounds_eq f depth b hf ha h
  | .peekNot _ f =>
    simp only [TFormat.erase, Format.lookaheadBoundsWith] at h
    simp only [TFormat.lookaheadBounds]
    exact lookaheadBounds_eq f depth b hf ha h
  | .align n =>
    simp only [TFormat.erase, Format.lookaheadBoundsWith] at h
    simp only [TFormat.lookaheadBounds]
    exact h
  | .sequence _ _ => exact ha.elim
  | .skipRemainder => exact ha.elim
  | .slice _ e _ =>
    have ha : e.bounds = .ok e.typedBounds := ha
    simp only [TFormat.erase, Format.lookaheadBoundsWith, ha] at h
    simp only [TFormat.lookaheadBounds]
    exact h
  | .formatCall _ level args views d =>
    obtain ⟨it, hi, he, _, _, hd⟩ := hf
    simp only [TFormat.erase, Format.lookaheadBoundsWith] at h
    simp only [TFormat.lookaheadBounds]
    cases depth with
    | zero => cases h
    | succ depth =>
      simp only [Format.itemLookaheadBounds] at h
      obtain ⟨i, h1, h2⟩ := Panicky.bind_eq_ok.1 h
      cases item_get hi h1
      rw [← he] at h2
      exact lookaheadBounds_eq d depth b hd ha h2
  | .repeatCount _ e f =>
    have hb := ha.1
    simp only [TFormat.erase, Format.lookaheadBoundsWith, hb] at h
    obtain ⟨b1, h1, h2⟩ := Panicky.bind_eq_ok.1 h
    cases h2
    simp only [TFormat.lookaheadBounds, lookaheadBounds_eq f depth b1 hf.2 ha.2 h1]
    rfl
  | .repeatBetween _ x y f =>
    obtain ⟨hb, hc, ha⟩ := ha
    simp only [TFormat.erase, Format.lookaheadBoundsWith, hb, hc] at h
    obtain ⟨b1, h1, h2⟩ := Panicky.bind_eq_ok.1 h
    cases h2
    simp only [TFormat.lookaheadBounds, lookaheadBounds_eq f depth b1 hf.2.2 ha h1]
    rfl
  | .repeat1 _ f =>
    simp only [TFormat.erase, Format.lookaheadBoundsWith] at h
    obtain ⟨b1, h1, h2⟩ := Panicky.bind_eq_ok.1 h
    cases h2
    simp only [TFormat.lookaheadBounds, lookaheadBounds_eq f depth b1 hf ha h1]
    rfl
  | .repeatUntilLast _ _ f =>
    simp only [TFormat.erase, Format.lookaheadBoundsWith] at h
    obtain ⟨b1, h1, h2⟩ := Panicky.bind_eq_ok.1 h
    cases h2
    simp only [TFormat.lookaheadBounds, lookaheadBounds_eq f depth b1 hf ha h1]
    rfl
  | .bits _ f =>
    simp only [TFormat.erase, Format.lookaheadBoundsWith] at h
    obtain ⟨b1, h1, h2⟩ := Panicky.bind_eq_ok.1 h
    cases h2
    simp only [TFormat.lookaheadBounds, lookaheadBounds_eq f depth b1 hf ha h1]
    rfl
  | .maybe _ _ f =>
    simp only [TFormat.erase, Format.lookaheadBoundsWith] at h
    obtain ⟨b1, h1, h2⟩ := Panicky.bind_eq_ok.1 h
    cases h2
    simp only [TFormat.lookaheadBounds, lookaheadBounds_eq f depth b1 hf.2 ha h1]
    rfl
  | .letFormat _ f _ g =>
    simp only [TFormat.erase, Format.lookaheadBoundsWith] at h
    obtain ⟨b1, h1, h2⟩ := Panicky.bind_eq_ok.1 h
    obtain ⟨b2, h3, h4⟩ := Panicky.bind_eq_ok.1 h2
    obtain ⟨b3, h5, h6⟩ := Panicky.bind_eq_ok.1 h4
    cases h6
    simp only [TFormat.lookaheadBounds, lookaheadBounds_eq f depth b1 hf.1 ha.1 h1, matchBounds_eq f _ b2 hf.1 ha.1 h3,
      lookaheadBounds_eq g depth b3 hf.2 ha.2 h5]
    rfl
  | .monadSeq _ f g =>
    simp only [TFormat.erase, Format.lookaheadBoundsWith] at h
    obtain ⟨b1, h1, h2⟩ := Panicky.bind_eq_ok.1 h
    obtain ⟨b2, h3, h4⟩ := Panicky.bind_eq_ok.1 h2
    obtain ⟨b3, h5, h6⟩ := Panicky.bind_eq_ok.1 h4
    cases h6
    simp only [TFormat.lookaheadBounds, lookaheadBounds_eq f depth b1 hf.1 ha.1 h1, matchBounds_eq f _ b2 hf.1 ha.1 h3,
      lookaheadBounds_eq g depth b3 hf.2 ha.2 h5]
    rfl
  | .union _ fs =>
    simp only [TFormat.erase, Format.lookaheadBoundsWith] at h
    obtain ⟨bs, h1, h2⟩ := Panicky.bind_eq_ok.1 h
    simp only [TFormat.lookaheadBounds, lookaheadBoundsList_eq fs depth bs hf ha h1]
    exact h2
  | .unionNondet _ fs =>
    simp only [TFormat.erase, Format.lookaheadBoundsWith] at h
    obtain ⟨bs, h1, h2⟩ := Panicky.bind_eq_ok.1 h
    simp only [TFormat.lookaheadBounds, lookaheadBoundsList_eq fs depth bs hf ha h1]
    exact h2
  | .match_ _ _ fs =>
    simp only [TFormat.erase, Format.lookaheadBoundsWith] at h
    obtain ⟨bs, h1, h2⟩ := Panicky.bind_eq_ok.1 h
    simp only [TFormat.lookaheadBounds, lookaheadBoundsBranches_eq fs depth bs hf ha h1]
    exact h2
  | .tuple _ fs =>
    simp only [TFormat.erase, Format.lookaheadBoundsWith] at h
    obtain ⟨bs, h1, h2⟩ := Panicky.bind_eq_ok.1 h
    simp only [TFormat.lookaheadBounds, lookaheadBoundsList_eq fs depth bs hf ha h1]
    exact h2

theorem lookaheadBoundsList_eq {m : Module} (fs : List (TFormat τ)) (depth : Nat) (bs : List Bounds)
    (hf : TFormat.FitList m fs) (ha : TFormat.AlikeList fs)
    (h : Format.lookaheadBoundsList (Format.itemMatchBounds m m.items.length) (Format.itemLookaheadBounds m depth) (TFormat.eraseList fs) = .ok bs) : TFormat.lookaheadBoundsList fs = .ok bs := by
  match fs with
  | [] =>
    simp only [TFormat.eraseList, Format.lookaheadBoundsList] at h
    simp only [TFormat.lookaheadBoundsList]
    exact h
  | f :: fs =>
    simp only [TFormat.eraseList, Format.lookaheadBoundsList] at h
    obtain ⟨b1, h1, h2⟩ := Panicky.bind_eq_ok.1 h
    obtain ⟨bs1, h3, h4⟩ := Panicky.bind_eq_ok.1 h2
    cases h4
    simp only [TFormat.lookaheadBoundsList, lookaheadBounds_eq f depth b1 hf.1 ha.1 h1, lookaheadBoundsList_eq fs depth bs1 hf.2 ha.2 h3]
    rfl

theorem lookaheadBoundsBranches_eq {m : Module} (fs : List (Pattern × TFormat τ)) (depth : Nat) (bs : List Bounds)
    (hf : TFormat.FitBranches m fs) (ha : TFormat.AlikeBranches fs)
    (h : Format.lookaheadBoundsBranches (Format.itemMatchBounds m m.items.length) (Format.itemLookaheadBounds m depth) (TFormat.eraseBranches fs) = .ok bs) : TFormat.lookaheadBoundsBranches fs = .ok bs := by
  match fs with
  | [] =>
    simp only [TFormat.eraseBranches, Format.lookaheadBoundsBranches] at h
    simp only [TFormat.lookaheadBoundsBranches]
    exact h
  | (p, f) :: fs =>
    simp only [TFormat.eraseBranches, Format.lookaheadBoundsBranches] at h
    obtain ⟨b1, h1, h2⟩ := Panicky.bind_eq_ok.1 h
    obtain ⟨bs1, h3, h4⟩ := Panicky.bind_eq_ok.1 h2
    cases h4
    simp only [TFormat.lookaheadBoundsBranches, lookaheadBounds_eq f depth b1 hf.1 ha.1 h1, lookaheadBoundsBranches_eq fs depth bs1 hf.2 ha.2 h3]
    rfl
end

end TCompiler
end Doodle
