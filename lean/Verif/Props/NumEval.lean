import Verif.Model.NumEval
import Verif.Props.NumCore

/-! C36: the typed arithmetic helpers are exact. -/

namespace Doodle
namespace Num

/-- Specification.  `v` is the mathematical result (`none` when undefined): the helper must return it as a
machine value when it fits the output type, defer it exactly when not, and say not-a-number exactly when
it is undefined. -/
def ExactIn (out : MachineRep) (v : Option Int) : Eval → Prop
  | .direct n => v = some n ∧ out.Mem n
  | .indirect n => v = some n ∧ ¬ out.Mem n
  | .nan => v = none

/-- The mathematical meaning of the five operations; division truncates towards zero. -/
def mathOp (op : BasicBinOp) (a b : Int) : Option Int :=
  match op with
  | .add => some (a + b)
  | .sub => some (a - b)
  | .mul => some (a * b)
  | .div => if b = 0 then none else some (a.tdiv b)
  | .rem => if b = 0 then none else some (a.tmod b)

/-- `ExactIn` determines the outcome. -/
theorem exactIn_unique {out : MachineRep} {v : Option Int} {a b : Eval}
    (ha : ExactIn out v a) (hb : ExactIn out v b) : a = b := by
  cases a <;> cases b <;> simp_all [ExactIn]

theorem inRange_iff (r : MachineRep) (n : Int) : r.inRange n = true ↔ r.Mem n := by
  rw [asBounds_mem]; simp [MachineRep.inRange]

theorem rustAs_of_mem {r : MachineRep} {n : Int} (h : r.Mem n) : rustAs r n = n :=
  mem_unique r _ _ (rustAs_spec r n).1 h (rustAs_spec r n).2

theorem binTable_sup : ∀ p ∈ binTable, p.2.2.isSuperset p.1 = true ∧ p.2.2.isSuperset p.2.1 = true := by
  decide +kernel

/-- Addition, subtraction and multiplication helpers: exact, and never panic. -/
theorem C36_add_sub_mul (op : BasicBinOp) (hop : op = .add ∨ op = .sub ∨ op = .mul)
    (lt rt out : MachineRep) (hrow : (lt, rt, out) ∈ binTable) (l r : Int) (hl : lt.Mem l) (hr : rt.Mem r) :
    ∃ e, evalBin op out l r = .ok e ∧ ExactIn out (mathOp op l r) e := by
  obtain ⟨s1, s2⟩ := binTable_sup _ hrow
  have hl' := (C38_isSuperset _ _).1 s1 l hl
  have hr' := (C38_isSuperset _ _).1 s2 r hr
  unfold evalBin
  rw [rustAs_of_mem hl', rustAs_of_mem hr']
  have key : ∀ v : Int, ∃ e, (match (if out.inRange v then some v else none) with
      | some res => Panicky.ok (Eval.direct res)
      | none => .ok (.indirect v)) = .ok e ∧ ExactIn out (some v) e := by
    intro v
    by_cases h : out.inRange v = true
    · refine ⟨.direct v, by rw [if_pos h], rfl, (inRange_iff _ _).1 h⟩
    · refine ⟨.indirect v, by rw [if_neg h], rfl, fun hm => h ((inRange_iff _ _).2 hm)⟩
  rcases hop with rfl | rfl | rfl
  · exact key _
  · exact key _
  · exact key _

theorem tdiv_mem (out : MachineRep) (l r : Int) (hl : out.Mem l) (hr : out.Mem r) (hr0 : r ≠ 0)
    (hm : ¬ (out.isSigned = true ∧ l = out.asBounds.min ∧ r = -1)) : out.Mem (l.tdiv r) := by
  have habs : (l.tdiv r).natAbs = l.natAbs / r.natAbs := Int.natAbs_tdiv l r
  have hle : (l.tdiv r).natAbs ≤ l.natAbs := by rw [habs]; exact Nat.div_le_self _ _
  have hhalf : r ≠ 1 → r ≠ -1 → 2 * (l.tdiv r).natAbs ≤ l.natAbs := by
    intro h1 h2
    rw [habs]
    have h3 : 2 ≤ r.natAbs := by omega
    have h4 := Nat.div_mul_le_self l.natAbs r.natAbs
    have h5 := Nat.mul_le_mul_left (l.natAbs / r.natAbs) h3
    omega
  have h1 : r = 1 → l.tdiv r = l := by rintro rfl; exact Int.tdiv_one l
  have h2 : r = -1 → l.tdiv r = -l := by rintro rfl; rw [Int.tdiv_neg, Int.tdiv_one]
  have hnn : 0 ≤ l → 0 ≤ r → 0 ≤ l.tdiv r := fun a b => Int.tdiv_nonneg a b
  rw [asBounds_mem] at *
  generalize l.tdiv r = q at *
  obtain ⟨s, w⟩ := out
  cases s <;> cases w <;> simp only [MachineRep.asBounds, true_and, Bool.false_eq_true, false_and, not_false_iff] at * <;> omega

theorem tmod_mem (out : MachineRep) (l r : Int) (hl : out.Mem l) (hr : out.Mem r) (hr0 : r ≠ 0) :
    out.Mem (l.tmod r) := by
  have habs : (l.tmod r).natAbs = l.natAbs % r.natAbs := Int.natAbs_tmod l r
  have hle : (l.tmod r).natAbs ≤ l.natAbs := by rw [habs]; exact Nat.mod_le _ _
  have hnn : 0 ≤ l → 0 ≤ l.tmod r := fun h => Int.tmod_nonneg r h
  have hlt : (l.tmod r).natAbs < r.natAbs := by rw [habs]; exact Nat.mod_lt _ (by omega)
  rw [asBounds_mem] at *
  generalize l.tmod r = q at *
  obtain ⟨s, w⟩ := out
  cases s <;> cases w <;> simp only [MachineRep.asBounds] at * <;> omega

/-- Division and remainder helpers: exact except for `MIN / -1` and `MIN % -1` in a signed output type
(missing from the full statement: that one pair of operands, refuted below). -/
theorem C36_div_rem_partial (op : BasicBinOp) (hop : op = .div ∨ op = .rem)
    (lt rt out : MachineRep) (hrow : (lt, rt, out) ∈ binTable) (l r : Int) (hl : lt.Mem l) (hr : rt.Mem r)
    (hm : ¬ (out.isSigned = true ∧ l = out.asBounds.min ∧ r = -1)) :
    ExactIn out (mathOp op l r) (evalQuot op out l r) := by
  obtain ⟨s1, s2⟩ := binTable_sup _ hrow
  have hl' := (C38_isSuperset _ _).1 s1 l hl
  have hr' := (C38_isSuperset _ _).1 s2 r hr
  unfold evalQuot
  rw [rustAs_of_mem hl', rustAs_of_mem hr']
  by_cases hr0 : r = 0
  · rcases hop with rfl | rfl <;> simp [checkedOp, mathOp, hr0, ExactIn]
  · have hq := tdiv_mem out l r hl' hr' hr0 hm
    have hq' := (inRange_iff _ _).2 hq
    rcases hop with rfl | rfl
    · simp [checkedOp, mathOp, hr0, ExactIn, hq', hq]
    · simp [checkedOp, mathOp, hr0, ExactIn, hq', tmod_mem out l r hl' hr' hr0]

/-- The full statement fails: `MIN / -1` (a number, one too big for the type) and `MIN % -1` (which is 0)
are reported as not-a-number. -/
theorem C36_div_rem_refuted :
    (¬ ∀ lt rt out, (lt, rt, out) ∈ binTable → ∀ l r, lt.Mem l → rt.Mem r →
      ExactIn out (mathOp .div l r) (evalQuot .div out l r)) ∧
    (¬ ∀ lt rt out, (lt, rt, out) ∈ binTable → ∀ l r, lt.Mem l → rt.Mem r →
      ExactIn out (mathOp .rem l r) (evalQuot .rem out l r)) := by
  have m1 : I8.Mem (-128) := by simp [MachineRep.Mem, BitWidth.bits]
  have m2 : I8.Mem (-1) := by simp [MachineRep.Mem, BitWidth.bits]
  constructor
  · intro h
    have := h I8 I8 I8 (by decide) (-128) (-1) m1 m2
    have e : evalQuot .div I8 (-128) (-1) = .nan := by decide
    rw [e] at this
    revert this; simp [ExactIn, mathOp]
  · intro h
    have := h I8 I8 I8 (by decide) (-128) (-1) m1 m2
    have e : evalQuot .rem I8 (-128) (-1) = .nan := by decide
    rw [e] at this
    revert this; simp [ExactIn, mathOp]

/-- The generic fallback is exact for every operand types and every output type. -/
theorem C36_fallback (op : BasicBinOp) (out : MachineRep) (l r : Int) :
    ExactIn out (mathOp op l r) (evalFallback op out l r) := by
  have hb : bigCheckedOp op l r = mathOp op l r := by cases op <;> rfl
  unfold evalFallback
  rw [hb]
  cases h : mathOp op l r with
  | none => rfl
  | some n =>
    simp only
    split
    · rename_i hc; exact ⟨rfl, (inRange_iff _ _).1 hc⟩
    · rename_i hc; exact ⟨rfl, fun hm => hc ((inRange_iff _ _).2 hm)⟩

theorem C36_unary_fallback (f : Int → Int) (out : MachineRep) (x : Int) :
    ExactIn out (some (f x)) (evalUnaryFallback f out x) := by
  unfold evalUnaryFallback
  split
  · rename_i hc; exact ⟨rfl, (inRange_iff _ _).1 hc⟩
  · rename_i hc; exact ⟨rfl, fun hm => hc ((inRange_iff _ _).2 hm)⟩

theorem native_ok {dbg : Bool} {t : MachineRep} {n : Int} (h : t.Mem n) : native dbg t n = .ok n := by
  unfold native; rw [if_pos ((inRange_iff _ _).2 h)]

theorem bind_native {dbg : Bool} {t : MachineRep} {n : Int} (h : t.Mem n) (f : Int → Panicky Eval) :
    (native dbg t n).bind f = f n := by rw [native_ok h]; rfl

/-- Type-preserving negation: exact except at `MIN`. -/
theorem C36_neg_same_partial (dbg : Bool) (t out : MachineRep) (hrow : (t, out) ∈ negSameTable) (x : Int)
    (hx : t.Mem x) (hm : x ≠ t.asBounds.min) :
    ∃ e, negAsSigned dbg out x = .ok e ∧ ExactIn out (some (-x)) e := by
  have key : ∀ p ∈ negSameTable, p.1 = p.2 ∧ -p.1.asBounds.max = p.1.asBounds.min + 1 := by decide
  obtain ⟨h1, h2⟩ := key _ hrow
  simp only at h1 h2
  subst h1
  have hn : t.Mem (-x) := by rw [asBounds_mem] at *; omega
  refine ⟨.direct (-x), ?_, rfl, hn⟩
  unfold negAsSigned
  rw [rustAs_of_mem hx, bind_native hn]

/-- At `MIN` the helper panics with overflow checks and returns the wrong machine value without. -/
theorem C36_neg_min_refuted :
    negAsSigned true I8 (-128) = .panic ∧ negAsSigned false I8 (-128) = .ok (.direct (-128)) ∧
    (I8, I8) ∈ negSameTable ∧ ¬ ExactIn I8 (some (-(-128))) (.direct (-128)) := by
  refine ⟨by decide, by decide, by decide, ?_⟩
  simp [ExactIn]

/-- Negation into a wider signed type is exact. -/
theorem C36_neg_widening (dbg : Bool) (t out : MachineRep) (hrow : (t, out) ∈ negAsSignedTable) (x : Int)
    (hx : t.Mem x) : ∃ e, negAsSigned dbg out x = .ok e ∧ ExactIn out (some (-x)) e := by
  have key : ∀ p ∈ negAsSignedTable, p.2.asBounds.min ≤ p.1.asBounds.min ∧ p.1.asBounds.max ≤ p.2.asBounds.max ∧
    p.2.asBounds.min ≤ -p.1.asBounds.max ∧ -p.1.asBounds.min ≤ p.2.asBounds.max := by decide +kernel
  have := key _ hrow
  simp only at this
  have hx' : out.Mem x := by rw [asBounds_mem] at *; omega
  have hn : out.Mem (-x) := by rw [asBounds_mem] at *; omega
  refine ⟨.direct (-x), ?_, rfl, hn⟩
  unfold negAsSigned
  rw [rustAs_of_mem hx', bind_native hn]

/-- Negation between unsigned types, narrowing included, is exact. -/
theorem C36_neg_unsigned (t out : MachineRep) (hrow : (t, out) ∈ negUnsignedTable) (x : Int) (hx : t.Mem x) :
    ExactIn out (some (-x)) (negUnsigned x) := by
  have key : ∀ p ∈ negUnsignedTable, p.2.asBounds.min = 0 ∧ p.1.asBounds.min = 0 ∧ 0 ≤ p.2.asBounds.max := by decide
  have := key _ hrow
  simp only at this
  rw [asBounds_mem] at hx
  unfold negUnsigned
  split
  · rename_i h0; subst h0; exact ⟨rfl, by rw [asBounds_mem]; omega⟩
  · exact ⟨rfl, by rw [asBounds_mem]; omega⟩

/-- Negation of a signed value into an unsigned type is exact, at `MIN` too. -/
theorem C36_neg_into_unsigned (dbg : Bool) (t out : MachineRep) (hrow : (t, out) ∈ negIntoUnsignedTable) (x : Int)
    (hx : t.Mem x) : ∃ e, negIntoUnsigned dbg t out x = .ok e ∧ ExactIn out (some (-x)) e := by
  have key : ∀ p ∈ negIntoUnsignedTable, p.2.asBounds.min = 0 ∧ p.1.asBounds.max < p.2.asBounds.max ∧
    p.1.asBounds.min = -p.1.asBounds.max - 1 := by decide +kernel
  have := key _ hrow
  simp only at this
  unfold negIntoUnsigned
  split
  · exact ⟨_, rfl, rfl, by rw [asBounds_mem]; omega⟩
  · split
    · rename_i hm
      have h1 : out.Mem t.asBounds.max := by rw [asBounds_mem] at *; omega
      have h2 : out.Mem (t.asBounds.max + 1) := by rw [asBounds_mem] at *; omega
      rw [rustAs_of_mem h1, bind_native h2]
      refine ⟨_, rfl, ?_, h2⟩
      congr 1; omega
    · have h1 : t.Mem (-x) := by rw [asBounds_mem] at *; omega
      have h2 : out.Mem (-x) := by rw [asBounds_mem] at *; omega
      rw [bind_native h1, rustAs_of_mem h2]
      exact ⟨_, rfl, rfl, h2⟩

/-- Type-preserving absolute value: exact without overflow checks, and everywhere except `MIN` with them. -/
theorem C36_abs_same_partial (dbg : Bool) (t out : MachineRep) (hrow : (t, out) ∈ absSameTable) (x : Int)
    (hx : t.Mem x) (hm : dbg = true → x ≠ t.asBounds.min) :
    ∃ e, absSigned dbg t x = .ok e ∧ ExactIn out (some x.natAbs) e := by
  have key : ∀ p ∈ absSameTable, p.1 = p.2 ∧ p.1.asBounds.min = -p.1.asBounds.max - 1 ∧ 0 < p.1.asBounds.max ∧
      rustAs p.1 (p.1.asBounds.max + 1) = p.1.asBounds.min := by decide +kernel
  obtain ⟨h1, h2, h3, h4⟩ := key _ hrow
  simp only at h1 h2 h3 h4
  subst h1
  by_cases hmin : x = t.asBounds.min
  · have hd : dbg = false := by cases dbg <;> simp_all
    have hnm : ¬ t.Mem x.natAbs := by rw [asBounds_mem] at *; omega
    refine ⟨.indirect x.natAbs, ?_, rfl, hnm⟩
    unfold absSigned native
    rw [if_neg (fun h => hnm ((inRange_iff _ _).1 h)), hd]
    have e : (x.natAbs : Int) = t.asBounds.max + 1 := by omega
    rw [e, h4]
    simp [Panicky.bind]
  · have hnm : t.Mem x.natAbs := by rw [asBounds_mem] at *; omega
    refine ⟨.direct x.natAbs, ?_, rfl, hnm⟩
    unfold absSigned
    rw [bind_native hnm, if_neg (by omega)]

/-- With overflow checks, absolute value of `MIN` panics instead of deferring. -/
theorem C36_abs_min_panics : absSigned true I64 (-9223372036854775808) = .panic ∧
    absSignedUnsigned true I64 U64 (-9223372036854775808) = .panic := by decide +kernel

theorem C36_abs_widening (dbg : Bool) (t out : MachineRep) (hrow : (t, out) ∈ absAsSignedTable) (x : Int)
    (hx : t.Mem x) : ∃ e, absAsSigned dbg out x = .ok e ∧ ExactIn out (some x.natAbs) e := by
  have key : ∀ p ∈ absAsSignedTable, p.2.asBounds.min ≤ p.1.asBounds.min ∧ p.1.asBounds.max ≤ p.2.asBounds.max ∧
    p.2.asBounds.min ≤ 0 ∧ -p.1.asBounds.min ≤ p.2.asBounds.max := by decide +kernel
  have := key _ hrow
  simp only at this
  have hx' : out.Mem x := by rw [asBounds_mem] at *; omega
  have hn : out.Mem x.natAbs := by rw [asBounds_mem] at *; omega
  refine ⟨.direct x.natAbs, ?_, rfl, hn⟩
  unfold absAsSigned
  rw [rustAs_of_mem hx', bind_native hn]

/-- Absolute value of a signed value into an unsigned type. -/
theorem C36_abs_into_unsigned_partial (dbg : Bool) (t out : MachineRep)
    (hrow : (t, out) ∈ absSignedUnsignedTable) (x : Int)
    (hx : t.Mem x) (hm : dbg = true → x ≠ t.asBounds.min) :
    ∃ e, absSignedUnsigned dbg t out x = .ok e ∧ ExactIn out (some x.natAbs) e := by
  have key : ∀ p ∈ absSignedUnsignedTable, p.2.asBounds.min = 0 ∧ p.1.asBounds.max < p.2.asBounds.max ∧
    0 < p.1.asBounds.max ∧
    p.1.asBounds.min = -p.1.asBounds.max - 1 ∧ rustAs p.1 (p.1.asBounds.max + 1) = p.1.asBounds.min := by
      decide +kernel
  obtain ⟨k1, k2, k3, k4, k5⟩ := key _ hrow
  simp only at k1 k2 k3 k4 k5
  have h1 : out.Mem t.asBounds.max := by rw [asBounds_mem] at *; omega
  have h2 : out.Mem (t.asBounds.max + 1) := by rw [asBounds_mem] at *; omega
  by_cases hmin : x = t.asBounds.min
  · have hd : dbg = false := by cases dbg <;> simp_all
    have hnm : ¬ t.Mem x.natAbs := by rw [asBounds_mem] at *; omega
    have e : (x.natAbs : Int) = t.asBounds.max + 1 := by omega
    refine ⟨.direct x.natAbs, ?_, rfl, by rw [e]; exact h2⟩
    unfold absSignedUnsigned
    have hnat : native dbg t x.natAbs = .ok t.asBounds.min := by
      unfold native
      rw [if_neg (fun h => hnm ((inRange_iff _ _).1 h)), hd, e, k5]; rfl
    rw [hnat]
    show (if t.asBounds.min = t.asBounds.min then _ else _) = _
    rw [if_pos rfl, rustAs_of_mem h1, bind_native h2, e]
  · have hnm : t.Mem x.natAbs := by rw [asBounds_mem] at *; omega
    have ho : out.Mem x.natAbs := by rw [asBounds_mem] at *; omega
    refine ⟨.direct x.natAbs, ?_, rfl, ho⟩
    unfold absSignedUnsigned
    rw [bind_native hnm, if_neg (by omega), rustAs_of_mem ho]

theorem C36_abs_unsigned (t out : MachineRep) (hrow : (t, out) ∈ absUnsignedTable) (x : Int) (hx : t.Mem x) :
    ExactIn out (some x.natAbs) (absUnsigned out x) := by
  have key : ∀ p ∈ absUnsignedTable, p.1.asBounds.min = 0 ∧ p.2.asBounds.min = 0 ∧
    p.1.asBounds.max ≤ p.2.asBounds.max := by decide +kernel
  have := key _ hrow
  simp only at this
  have ho : out.Mem x := by rw [asBounds_mem] at *; omega
  unfold absUnsigned
  rw [rustAs_of_mem ho]
  refine ⟨?_, ho⟩
  rw [asBounds_mem] at hx
  congr 1; omega

theorem C36_direct_cast (t out : MachineRep) (hrow : (t, out) ∈ directCastTable) (x : Int) (hx : t.Mem x) :
    ExactIn out (some x) (directCast out x) := by
  have key : ∀ p ∈ directCastTable, p.2.isSuperset p.1 = true := by decide +kernel
  have ho := (C38_isSuperset _ _).1 (key _ hrow) x hx
  unfold directCast
  rw [rustAs_of_mem ho]
  exact ⟨rfl, ho⟩

theorem C36_attempt_cast (out : MachineRep) (x : Int) : ExactIn out (some x) (attemptCast out x) := by
  unfold attemptCast
  split
  · rename_i hc; exact ⟨rfl, (inRange_iff _ _).1 hc⟩
  · rename_i hc; exact ⟨rfl, fun hm => hc ((inRange_iff _ _).2 hm)⟩

/-- Every ordered pair of distinct machine types has exactly one of the two kinds of cast helper. -/
theorem C36_casts_cover (t out : MachineRep) :
    t = out ∨ ((t, out) ∈ directCastTable ∧ (t, out) ∉ attemptCastTable) ∨
      ((t, out) ∈ attemptCastTable ∧ (t, out) ∉ directCastTable) := by
  obtain ⟨s0, w0⟩ := t
  obtain ⟨s1, w1⟩ := out
  cases s0 <;> cases w0 <;> cases s1 <;> cases w1 <;> decide +kernel

example : (I16, U8, I16) ∈ binTable ∧ evalBin .sub I16 (-32768) 255 = .ok (.indirect (-33023)) := by decide +kernel
example : evalQuot .div I16 (-32768) 255 = .direct (-128) := by decide +kernel

end Num
end Doodle
