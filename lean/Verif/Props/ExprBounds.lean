import Verif.Spec.Interval
import Verif.Model.Expr
import Verif.Props.Bounds
import Verif.Props.NumCore

/-! C05: the static bounds of an expression contain its run-time value. -/

namespace Doodle
variable {δ : Type}

/-- the unsigned number an evaluation result stands for -/
def IsNumber (v : Value) (n : Nat) : Prop := v.coerceMapped.intVal? = some (n : Int)

/-- The full claim. -/
def ExprBoundsSound : Prop :=
  ∀ (e : Expr) (b : Bounds) (s : Scope Unit) (v : Value) (n : Nat),
    e.bounds = .ok b → e.eval s = .ok v → IsNumber v n → InInterval b n

/-- Operand intervals on which the interval operation for `&`, `<<`, `>>` is sound for machine words of
every width; the other operations have no condition. -/
def OpSafe (op : Arith) (a b : Bounds) : Prop :=
  match op with
  | .shl => ∃ m1 m2, a.max = some m1 ∧ b.max = some m2 ∧ m2 < 64 ∧ m1 <<< m2 < 256
  | .shr => b.max = none → b.min = 0
  | .bitAnd =>
    (a.max = some a.min → b.max ≠ some b.min → ∀ k lo, b.bitwiseBounds = .ok (k, lo) → lo.min ≠ 0) ∧
    (b.max = some b.min → a.max ≠ some a.min → ∀ k lo, a.bitwiseBounds = .ok (k, lo) → lo.min ≠ 0)
  | _ => True

/-- every `&`, `<<`, `>>` on the arithmetic spine of the expression has safe operand intervals -/
def Expr.SpineSafe : Expr → Prop
  | .asNum _ x => x.SpineSafe
  | .arith op x y => x.SpineSafe ∧ y.SpineSafe ∧ ∀ a b, x.bounds = .ok a → y.bounds = .ok b → OpSafe op a b
  | .unary _ x => x.SpineSafe
  | _ => True

private theorem mkNum_ok {k : UKind} {n : Nat} {v : Value} (h : Value.mkNum k n = .ok v) :
    ∃ hn : n < k.card, v = .num k ⟨n, hn⟩ := by
  unfold Value.mkNum at h
  split at h
  · next hn => cases h; exact ⟨hn, rfl⟩
  · cases h

private theorem card_ge (k : UKind) : 256 ≤ k.card := by
  cases k with
  | fixed w => cases w <;> decide
  | usize => decide

private theorem num_number {k : UKind} {m : Fin k.card} {n : Nat} (h : IsNumber (.num k m) n) : n = m.val := by
  simp only [IsNumber, Value.coerceMapped, Value.intVal?, Option.some.injEq] at h
  omega

private theorem num_is (k : UKind) (m : Fin k.card) (v : Value) (hv : v.coerceMapped = .num k m) :
    IsNumber v m.val := by simp [IsNumber, hv, Value.intVal?]

private def opBounds (op : Arith) (a b : Bounds) : Panicky Bounds :=
  match op with
  | .add => .ok (a.add b)
  | .sub => .ok (a.sub b)
  | .mul => .ok (a.mul b)
  | .div => .ok (a.div b)
  | .bitOr => a.bitOr b
  | .bitAnd => a.bitAnd b
  | .shl => .ok (a.shl b)
  | .shr => .ok (a.shr b)
  | .rem => Bounds.rem a b
  | .boolOr => .ok .any
  | .boolAnd => .ok .any

private theorem arithNum_sound (op : Arith) (k : UKind) (x y : Nat) (hy : y < k.card) (a b r : Bounds)
    (ha : InInterval a x) (hb : InInterval b y) (hsafe : OpSafe op a b) (v : Value) (n : Nat)
    (hr : .ok r = opBounds op a b)
    (h : Value.arithNum op k x y = .ok v) (hn : IsNumber v n) : InInterval r n := by
  cases op with
  | add =>
    obtain ⟨_, rfl⟩ := mkNum_ok h
    cases hr; rw [num_number hn]; exact Bounds.C04_add a b x y ha hb
  | sub =>
    simp only [Value.arithNum] at h
    split at h
    · obtain ⟨_, rfl⟩ := mkNum_ok h
      cases hr; rw [num_number hn]; exact Bounds.C04_sub a b x y ha hb
    · cases h
  | mul =>
    obtain ⟨_, rfl⟩ := mkNum_ok h
    cases hr; rw [num_number hn]; exact Bounds.C04_mul a b x y ha hb
  | div =>
    simp only [Value.arithNum] at h
    split at h
    · cases h
    · next h0 =>
      obtain ⟨_, rfl⟩ := mkNum_ok h
      cases hr; rw [num_number hn]; exact Bounds.C04_div a b x y ha hb h0
  | rem =>
    simp only [Value.arithNum] at h
    split at h
    · cases h
    · next h0 =>
      obtain ⟨_, rfl⟩ := mkNum_ok h
      obtain ⟨r', h1, h2⟩ := Bounds.C04_rem a b x y ha hb h0
      simp only [opBounds, h1] at hr
      cases hr; rw [num_number hn]; exact h2
  | bitOr =>
    obtain ⟨_, rfl⟩ := mkNum_ok h
    rw [num_number hn]; exact Bounds.C04_bitOr a b r x y ha hb hr.symm
  | bitAnd =>
    obtain ⟨_, rfl⟩ := mkNum_ok h
    rw [num_number hn]; exact Bounds.C04_bitAnd_partial a b r x y ha hb hr.symm hsafe.1 hsafe.2
  | boolOr => cases hr; exact Bounds.C04_any n
  | boolAnd => cases hr; exact Bounds.C04_any n
  | shl =>
    simp only [Value.arithNum] at h
    split at h
    · obtain ⟨_, rfl⟩ := mkNum_ok h
      cases hr
      rw [num_number hn]
      obtain ⟨m1, m2, e1, e2, h64, h256⟩ := hsafe
      have hx := ha.2 _ e1
      have hy' := hb.2 _ e2
      have hyu : y % u32Card = y := Nat.mod_eq_of_lt (by unfold u32Card; omega)
      have hle : x <<< y ≤ m1 <<< m2 := by
        rw [Nat.shiftLeft_eq, Nat.shiftLeft_eq]
        exact Nat.mul_le_mul hx (Nat.pow_le_pow_right (by omega) hy')
      have hlt : x <<< y < k.card := Nat.lt_of_lt_of_le (Nat.lt_of_le_of_lt hle h256) (card_ge k)
      rw [show (⟨(x <<< (y % u32Card)) % k.card, _⟩ : Fin k.card).val = x <<< y by
        show (x <<< (y % u32Card)) % k.card = _
        rw [hyu, Nat.mod_eq_of_lt hlt]]
      refine Bounds.C04_shl_partial a b x y ha hb fun p q hp hq _ => ?_
      rw [e1] at hp; rw [e2] at hq
      cases hp; cases hq
      exact Nat.lt_of_lt_of_le h256 (by decide)
    · cases h
  | shr =>
    simp only [Value.arithNum] at h
    split at h
    · obtain ⟨_, rfl⟩ := mkNum_ok h
      cases hr
      rw [num_number hn]
      show InInterval _ (x >>> (y % u32Card))
      have mono : ∀ p : Nat, x >>> p ≤ x := fun p => by
        rw [Nat.shiftRight_eq_div_pow]; exact Nat.div_le_self _ _
      by_cases hsm : y < u32Card
      · rw [Nat.mod_eq_of_lt hsm]; exact Bounds.C04_shr a b x y ha hb
      · unfold Bounds.shr Bounds.checkedShr
        cases hm : b.max with
        | some m =>
          have : m ≥ u32Card := Nat.le_trans (by omega) (hb.2 _ hm)
          simp only [tryU32, if_neg (Nat.not_lt.mpr this), Option.getD_none]
          exact Bounds.C04_any _
        | none =>
          have h0 := hsafe hm
          have : (0 : Nat) < u32Card := by decide
          simp only [tryU32, h0, this, if_true, Option.getD_some]
          refine ⟨Nat.zero_le _, fun q hq => ?_⟩
          cases hma : a.max with
          | none => rw [hma] at hq; cases hq
          | some m1 =>
            rw [hma] at hq
            simp [checkedShr] at hq
            subst hq
            exact Nat.le_trans (mono _) (ha.2 _ hma)
    · cases h

private theorem arith_num {op : Arith} {l r v : Value} (hop : op ≠ .boolOr) (hop' : op ≠ .boolAnd)
    (h : Value.arith op l r = .ok v) :
    ∃ k x y, l = .num k x ∧ r = .num k y ∧ Value.arithNum op k x.val y.val = .ok v := by
  cases op <;> first | exact absurd rfl hop | exact absurd rfl hop' | skip
  all_goals
    simp only [Value.arith] at h
    split at h
    · split at h
      · next hk => subst hk; exact ⟨_, _, _, rfl, rfl, h⟩
      · cases h
    · cases h

private theorem num_eval_void (e : Num.Expr) (f : String → Num.Out Num.StrictValue) (c : Num.TypedConst)
    (h : e.eval Num.voidScope = .ok c) : e.eval f = .ok c := by
  have bind_ok : ∀ {α β : Type} {x : Num.Out α} {g : α → Num.Out β} {b : β}, x.bind g = .ok b →
      ∃ a, x = .ok a ∧ g a = .ok b := by
    intro α β x g b h
    cases x with
    | ok a => exact ⟨a, rfl, h⟩
    | err e => cases h
    | panic => cases h
  induction e generalizing c with
  | const c => exact h
  | binOp op o l r ihl ihr =>
    simp only [Num.Expr.eval] at h ⊢
    obtain ⟨a, ha, h⟩ := bind_ok h
    obtain ⟨b, hb, h⟩ := bind_ok h
    rw [ihl a ha, ihr b hb]; exact h
  | unaryOp op o e ih =>
    simp only [Num.Expr.eval] at h ⊢
    obtain ⟨a, ha, h⟩ := bind_ok h
    rw [ih a ha]; exact h
  | cast op o e ih =>
    simp only [Num.Expr.eval] at h ⊢
    obtain ⟨a, ha, h⟩ := bind_ok h
    rw [ih a ha]; exact h
  | numVar x => simp [Num.Expr.eval, Num.voidScope, Num.Out.bind] at h

/-- If the bounds of an expression and its value are both computed without a panic, the number is in the
interval, for every expression whose `&`, `<<` and `>>` nodes have safe operand intervals.  The full
statement `ExprBoundsSound` is refuted for the excluded operators below. -/
theorem C05_bounds_partial (e : Expr) (hsafe : e.SpineSafe) (b : Bounds) (s : Scope δ) (v : Value) (n : Nat)
    (hb : e.bounds = .ok b) (he : e.eval s = .ok v) (hn : IsNumber v n) : InInterval b n := by
  match e with
  | .lit w m =>
    simp only [Expr.bounds] at hb; simp only [Expr.eval] at he
    cases hb; cases he
    rw [num_number hn]; exact (Bounds.C04_exact _ _).mpr rfl
  | .asNum w x =>
    simp only [Expr.bounds, Panicky.bind_eq_ok] at hb
    simp only [Expr.eval, Panicky.bind_eq_ok] at he
    obtain ⟨bx, hbx, hc⟩ := hb
    obtain ⟨vx, hvx, hcast⟩ := he
    unfold Expr.castTo at hcast
    split at hcast
    · next k m hv =>
      obtain ⟨hlt, rfl⟩ := mkNum_ok hcast
      have ih := C05_bounds_partial x hsafe bx s vx m.val hbx hvx (num_is k m vx hv)
      rw [num_number hn]
      show InInterval b m.val
      simp only [Expr.clampTo, Panicky.bind_eq_ok] at hc
      obtain ⟨r, hr, hc⟩ := hc
      cases hc
      obtain ⟨r', h1, h2⟩ := Bounds.C04_clamp bx 0 ((UKind.fixed w).card - 1) (Nat.zero_le _)
      rw [hr] at h1
      cases h1
      obtain ⟨c, hc, hin⟩ := (h2 m.val).mpr ⟨ih, Nat.zero_le _, by omega⟩
      subst hc
      exact hin
    · cases hcast
  | .arith op x y =>
    by_cases h1 : op = .boolOr
    · subst h1; simp only [Expr.bounds] at hb; cases hb; exact Bounds.C04_any n
    by_cases h2 : op = .boolAnd
    · subst h2; simp only [Expr.bounds] at hb; cases hb; exact Bounds.C04_any n
    obtain ⟨sx, sy, hop⟩ := hsafe
    simp only [Expr.eval, Panicky.bind_eq_ok] at he
    obtain ⟨vx, hvx, vy, hvy, he⟩ := he
    obtain ⟨k, p, q, e1, e2, he⟩ := arith_num h1 h2 he
    have hx := fun bx hbx => C05_bounds_partial x sx bx s vx p.val hbx hvx (num_is k p vx e1)
    have hy := fun bx hbx => C05_bounds_partial y sy bx s vy q.val hbx hvy (num_is k q vy e2)
    have key : ∃ bx yb, x.bounds = .ok bx ∧ y.bounds = .ok yb ∧ .ok b = opBounds op bx yb := by
      cases op <;> first | exact absurd rfl h1 | exact absurd rfl h2 | skip
      all_goals
        simp only [Expr.bounds, Panicky.bind_eq_ok] at hb
        obtain ⟨bx, hbx, yb, hyb, hb⟩ := hb
        exact ⟨bx, yb, hbx, hyb, hb.symm⟩
    obtain ⟨bx, yb, hbx, hyb, hb⟩ := key
    exact arithNum_sound op k p.val q.val q.isLt bx yb b (hx bx hbx) (hy yb hyb) (hop bx yb hbx hyb) v n hb he hn
  | .unary op x =>
    simp only [Expr.eval, Panicky.bind_eq_ok] at he
    obtain ⟨vx, hvx, he⟩ := he
    cases op with
    | boolNot => simp only [Expr.bounds] at hb; cases hb; exact Bounds.C04_any n
    | intSucc =>
      simp only [Expr.bounds, Panicky.bind_eq_ok] at hb
      obtain ⟨bx, hbx, hb⟩ := hb
      cases hb
      simp only [Value.unary] at he
      split at he
      · next k m hv =>
        obtain ⟨_, rfl⟩ := mkNum_ok he
        rw [num_number hn]
        exact Bounds.C04_add _ _ _ 1 (C05_bounds_partial x hsafe bx s vx m.val hbx hvx (num_is k m vx hv))
          ((Bounds.C04_exact _ _).mpr rfl)
      · cases he
    | intPred =>
      simp only [Expr.bounds, Panicky.bind_eq_ok] at hb
      obtain ⟨bx, hbx, hb⟩ := hb
      cases hb
      simp only [Value.unary] at he
      split at he
      · next k m hv =>
        split at he
        · obtain ⟨_, rfl⟩ := mkNum_ok he
          rw [num_number hn]
          exact Bounds.C04_sub _ _ _ 1 (C05_bounds_partial x hsafe bx s vx m.val hbx hvx (num_is k m vx hv))
            ((Bounds.C04_exact _ _).mpr rfl)
        · cases he
      · cases he
  | .numeric ne =>
    simp only [Expr.bounds] at hb
    split at hb
    · next sv hsv =>
      split at hb
      · split at hb
        · next m hm =>
          cases hb
          have hev := Num.C39_same_value Num.voidScope ne
          rw [hsv] at hev
          have hall := num_eval_void ne s.numLookup sv.value hev.symm
          simp only [Expr.eval, hall, Expr.numericResult] at he
          cases he
          simp only [IsNumber, Value.coerceMapped, Value.intVal?, Option.some.injEq] at hn
          unfold Num.TypedConst.asUsize at hm
          split at hm
          · cases hm
            exact (Bounds.C04_exact _ _).mpr (by omega)
          · cases hm
        · cases hb; exact Bounds.C04_any n
      · cases hb; exact Bounds.C04_any n
    · cases hb; exact Bounds.C04_any n
    · cases hb
  | .var _ | .bool _ | .tuple _ | .tupleProj _ _ | .record _ | .recordProj _ _ | .variant _ _ | .seq _
  | .match_ _ _ | .destructure _ _ _ | .lambda _ _ | .intRel _ _ _ | .asChar _ | .fromBytes _ _ _
  | .seqLength _ | .subSeq _ _ _ | .seqIx _ _ | .subSeqInflate _ _ _ | .flatMap _ _ | .flatMapAccum _ _ _ _
  | .flatMapList _ _ _ | .findByKey _ _ _ _ | .enumFromTo _ _ | .leftFold _ _ _ _ | .dup _ _ | .liftNone
  | .liftSome _ | .append _ _ =>
    simp only [Expr.bounds] at hb; cases hb; exact Bounds.C04_any n

/-- Left shift: the evaluator drops the bits shifted out of the operand's type, the bounds are computed
on 64-bit words: `200u8 << 1u8` is 144, its bounds are exactly 400. -/
theorem C05_shl_refuted : ¬ ExprBoundsSound := by
  intro h
  have := h (.arith .shl (.lit .b8 200) (.lit .b8 1)) (.exact 400) .empty (.num (.fixed .b8) 144) 144
    (by decide +kernel) (by simp [Expr.eval, bind, Panicky.bind, Value.coerceMapped, Value.arith]; rfl) rfl
  rw [Bounds.C04_exact] at this
  cases this

/-- Right shift: the shift amount is truncated to 32 bits before shifting, so `255 >> (y + 5)` with
`y + 5 = 2^32` is 255, while the bounds are `0..=7`. -/
theorem C05_shr_refuted : ∃ (e : Expr) (b : Bounds) (s : Scope Unit) (v : Value) (n : Nat),
    e.bounds = .ok b ∧ e.eval s = .ok v ∧ IsNumber v n ∧ ¬ InInterval b n := by
  refine ⟨.arith .shr (.lit .b64 255) (.arith .add (.var "y") (.lit .b64 5)), ⟨0, some 7⟩,
    .single "y" (.num (.fixed .b64) (Fin.ofNat _ (2 ^ 32 - 5))) .empty, .num (.fixed .b64) 255, 255,
    by decide +kernel, ?_, rfl, ?_⟩
  · simp only [Expr.eval, bind, Panicky.bind, Scope.getValue, Panicky.unwrap, if_true, Value.coerceMapped,
      Value.arith, Value.arithNum]
    rfl
  · intro h
    have := h.2 7 rfl
    omega

/-- Bit-and: `15u8 & x` with `x = 15` (cast from an unbounded value) is 15, the bounds say 0. -/
theorem C05_bitAnd_refuted : ∃ (e : Expr) (b : Bounds) (s : Scope Unit) (v : Value) (n : Nat),
    e.bounds = .ok b ∧ e.eval s = .ok v ∧ IsNumber v n ∧ ¬ InInterval b n := by
  refine ⟨.arith .bitAnd (.lit .b8 15) (.asNum .b8 (.var "x")), .exact 0,
    .single "x" (.num (.fixed .b8) 15) .empty, .num (.fixed .b8) 15, 15, by decide +kernel, ?_, rfl, ?_⟩
  · simp only [Expr.eval, bind, Panicky.bind, Scope.getValue, Panicky.unwrap, if_true, Value.coerceMapped,
      Value.arith, Value.arithNum, Expr.castTo]
    rfl
  · rw [Bounds.C04_exact]; omega

/-- non-vacuity: `(x as u8) * 2 + 1` -/
example : (Expr.arith .add (.arith .mul (.asNum .b8 (.var "x")) (.lit .b8 2)) (.lit .b8 1)).SpineSafe ∧
    (Expr.arith .add (.arith .mul (.asNum .b8 (.var "x")) (.lit .b8 2)) (.lit .b8 1)).bounds =
      .ok ⟨1, some 511⟩ :=
  ⟨by simp [Expr.SpineSafe, OpSafe], by decide +kernel⟩

end Doodle
