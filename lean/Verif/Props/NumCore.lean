import Verif.Model.NumCore

/-! Properties C37 (bitwise cast), C38 (representability) and C39 (strict evaluation). -/

namespace Doodle
namespace Num

/-! ### specification of machine integer types -/

/-- The integers of a machine type: `[-2^(w-1), 2^(w-1))` or `[0, 2^w)`. -/
def MachineRep.Mem (r : MachineRep) (n : Int) : Prop :=
  if r.isSigned then -(2 : Int) ^ (r.bitWidth.bits - 1) ≤ n ∧ n < 2 ^ (r.bitWidth.bits - 1)
  else 0 ≤ n ∧ n < 2 ^ r.bitWidth.bits

theorem asBounds_mem (r : MachineRep) (n : Int) :
    r.Mem n ↔ r.asBounds.min ≤ n ∧ n ≤ r.asBounds.max := by
  obtain ⟨s, w⟩ := r
  cases s <;> cases w <;> simp [MachineRep.Mem, MachineRep.asBounds, BitWidth.bits] <;> omega

theorem rustAs_eq (r : MachineRep) (n : Int) : rustAs r n =
    if r.isSigned = true ∧ n % 2 ^ r.bitWidth.bits ≥ 2 ^ (r.bitWidth.bits - 1)
    then n % 2 ^ r.bitWidth.bits - 2 ^ r.bitWidth.bits else n % 2 ^ r.bitWidth.bits := by
  simp only [rustAs, Bool.and_eq_true, decide_eq_true_eq]

theorem rustAs_spec (r : MachineRep) (n : Int) :
    r.Mem (rustAs r n) ∧ (rustAs r n - n) % 2 ^ r.bitWidth.bits = 0 := by
  rw [rustAs_eq]
  obtain ⟨s, w⟩ := r
  cases s <;> cases w <;> simp only [MachineRep.Mem, BitWidth.bits, Bool.false_eq_true, false_and, true_and, if_true, if_false] <;>
    (constructor <;> (try split) <;> omega)

/-- a machine type holds at most one representative of each residue class -/
theorem mem_unique (r : MachineRep) (a b : Int) (ha : r.Mem a) (hb : r.Mem b)
    (h : (a - b) % 2 ^ r.bitWidth.bits = 0) : a = b := by
  obtain ⟨s, w⟩ := r
  cases s <;> cases w <;>
    simp only [MachineRep.Mem, BitWidth.bits, if_true, if_false, Bool.false_eq_true] at ha hb h <;>
    omega

/-! ## C37 -/

/-- A bitwise cast of a value of the source type never panics and returns a value of the target type
congruent to the source modulo two to the target width; there is only one such value. -/
theorem C37_bitwiseCast (r0 r1 : MachineRep) (n : Int) (hn : r0.Mem n) :
    ∃ m, bitwiseCast n (.concrete r0) r1 = .ok m ∧ r1.Mem m ∧ (m - n) % 2 ^ r1.bitWidth.bits = 0 ∧
      ∀ m', r1.Mem m' → (m' - n) % 2 ^ r1.bitWidth.bits = 0 → m' = m := by
  have uniq : ∀ m, r1.Mem m → (m - n) % 2 ^ r1.bitWidth.bits = 0 →
      ∀ m', r1.Mem m' → (m' - n) % 2 ^ r1.bitWidth.bits = 0 → m' = m := by
    intro m hm h1 m' hm' h2
    refine mem_unique r1 m' m hm' hm ?_
    have := Int.emod_emod_of_dvd
    have e : m' - m = (m' - n) - (m - n) := by omega
    rw [e, Int.sub_emod, h1, h2]; simp
  unfold bitwiseCast
  by_cases c : castNeeded r0 r1 = true
  · have hb := (asBounds_mem r0 n).1 hn
    refine ⟨rustAs r1 n, ?_, (rustAs_spec r1 n).1, (rustAs_spec r1 n).2,
      uniq _ (rustAs_spec r1 n).1 (rustAs_spec r1 n).2⟩
    simp only [c, if_true, bigintAs, if_pos hb]
  · have hmem : r1.Mem n := by
      obtain ⟨s0, w0⟩ := r0
      obtain ⟨s1, w1⟩ := r1
      revert c hn
      cases s0 <;> cases w0 <;> cases s1 <;> cases w1 <;>
        simp [castNeeded, MachineRep.Mem, BitWidth.bits] <;> omega
    refine ⟨n, ?_, hmem, by simp, uniq n hmem (by simp)⟩
    simp only [c]; rfl

/-- From an abstract (`Auto`) representation the cast does not reduce at all: the property fails there. -/
theorem C37_auto_refuted :
    ¬ ∀ (r1 : MachineRep) (n m : Int), bitwiseCast n .auto r1 = .ok m → r1.Mem m := by
  intro h
  have := h U8 256 256 rfl
  revert this
  simp [MachineRep.Mem, BitWidth.bits]

/-- A value outside the source type makes the cast panic when the pair needs a conversion. -/
theorem C37_out_of_range_panics (r0 r1 : MachineRep) (n : Int) (hc : castNeeded r0 r1 = true)
    (hn : ¬ r0.Mem n) : bitwiseCast n (.concrete r0) r1 = .panic := by
  rw [asBounds_mem] at hn
  simp only [bitwiseCast, hc, if_true, bigintAs, if_neg hn]

example : U8.Mem 255 ∧ bitwiseCast 255 (.concrete U8) I8 = .ok (-1) := by
  constructor
  · simp [MachineRep.Mem, BitWidth.bits]
  · decide
example : bitwiseCast (-2) (.concrete I16) U64 = .ok 18446744073709551614 := by decide +kernel

/-! ## C38 -/

/-- `is_superset` is inclusion of value sets. -/
theorem C38_isSuperset (a b : MachineRep) : a.isSuperset b = true ↔ ∀ n, b.Mem n → a.Mem n := by
  constructor
  · intro h n hn
    obtain ⟨s0, w0⟩ := a
    obtain ⟨s1, w1⟩ := b
    revert h hn
    cases s0 <;> cases w0 <;> cases s1 <;> cases w1 <;>
      simp [MachineRep.isSuperset, MachineRep.Mem, BitWidth.bits, BitWidth.rank, compare, compareOfLessAndEq] <;>
      omega
  · intro h
    have hmin := h b.asBounds.min ((asBounds_mem b _).2 ⟨by omega, by
      obtain ⟨s1, w1⟩ := b; cases s1 <;> cases w1 <;> simp [MachineRep.asBounds]⟩)
    have hmax := h b.asBounds.max ((asBounds_mem b _).2 ⟨by
      obtain ⟨s1, w1⟩ := b; cases s1 <;> cases w1 <;> simp [MachineRep.asBounds], by omega⟩)
    rw [asBounds_mem] at hmin hmax
    clear h
    obtain ⟨s0, w0⟩ := a
    obtain ⟨s1, w1⟩ := b
    revert hmin hmax
    cases s0 <;> cases w0 <;> cases s1 <;> cases w1 <;>
      simp [MachineRep.isSuperset, MachineRep.asBounds, BitWidth.rank, compare, compareOfLessAndEq]

/-- `encompasses` on machine types never panics and says the same. -/
theorem C38_encompasses (a b : MachineRep) :
    ∃ r, a.encompasses b = .ok r ∧ (r = true ↔ ∀ n, b.Mem n → a.Mem n) := by
  refine ⟨a.isSuperset b, ?_, C38_isSuperset a b⟩
  obtain ⟨s0, w0⟩ := a
  obtain ⟨s1, w1⟩ := b
  cases s0 <;> cases w0 <;> cases s1 <;> cases w1 <;> decide

/-- A constant is representable iff its type is `Auto` or contains it. -/
theorem C38_isRepresentable (c : TypedConst) :
    c.isRepresentable = true ↔ match c.rep with | .auto => True | .concrete r => r.Mem c.val := by
  obtain ⟨v, rep⟩ := c
  cases rep with
  | auto => simp [TypedConst.isRepresentable, NumRep.asBounds]
  | concrete r => simp [TypedConst.isRepresentable, NumRep.asBounds, asBounds_mem]

/-- Interval membership and inclusion. -/
theorem C38_bounds_contains (b : Bounds) (n : Int) : b.contains n = true ↔ b.min ≤ n ∧ n ≤ b.max := by
  simp [Bounds.contains]

theorem C38_bounds_encompasses (a b : Bounds) (hb : b.min ≤ b.max) :
    ∃ r, a.encompasses b = .ok r ∧ (r = true ↔ ∀ n, b.contains n = true → a.contains n = true) := by
  refine ⟨_, by unfold Bounds.encompasses; rw [if_pos hb], ?_⟩
  simp only [C38_bounds_contains, Bool.and_eq_true, decide_eq_true_eq]
  constructor
  · intro h n hn; omega
  · intro h
    have h1 := h b.min ⟨by omega, hb⟩
    have h2 := h b.max ⟨hb, by omega⟩
    omega

/-- Unification of two non-empty intervals is the smallest interval containing both. -/
theorem C38_bounds_unify (a b : Bounds) (hb : b.min ≤ b.max) :
    ∃ u, a.unify b = .ok u ∧ u.min = min a.min b.min ∧ u.max = max a.max b.max := by
  unfold Bounds.unify Bounds.isEncompassedBy Bounds.encompasses
  rw [if_pos hb, if_pos hb]
  by_cases c1 : b.min ≤ a.min ∧ a.max ≤ b.max
  · refine ⟨b, by simp [c1], ?_, ?_⟩ <;> omega
  · by_cases c2 : a.min ≤ b.min ∧ b.max ≤ a.max
    · refine ⟨a, ?_, ?_, ?_⟩
      · have : (decide (a.min ≥ b.min) && decide (a.max ≤ b.max)) = false := by
          simp; omega
        rw [this]; simp [c2]
      · omega
      · omega
    · refine ⟨⟨min a.min b.min, max a.max b.max⟩, ?_, rfl, rfl⟩
      have e1 : (decide (a.min ≥ b.min) && decide (a.max ≤ b.max)) = false := by simp; omega
      have e2 : (decide (a.min ≤ b.min) && decide (a.max ≥ b.max)) = false := by simp; omega
      rw [e1, e2]

/-- Conversion to `usize` succeeds exactly for values in range, and preserves the value. -/
theorem C38_asUsize (c : TypedConst) (n : Nat) :
    c.asUsize = some n ↔ c.val = n ∧ n < usizeCard := by
  unfold TypedConst.asUsize
  constructor
  · intro h
    split at h
    · cases h; omega
    · cases h
  · rintro ⟨h1, h2⟩
    rw [if_pos (by omega)]
    congr 1; omega

/-- Coercion to an unsigned word: exactly when the representation is that word's type or `Auto`, and the
value is in range. -/
theorem C38_getAsUnsized (w : BitWidth) (c : TypedConst) (n : Nat) :
    c.getAsUnsized w = some n ↔
      (c.rep = .concrete ⟨false, w⟩ ∨ c.rep = .auto) ∧ c.val = n ∧ (⟨false, w⟩ : MachineRep).Mem n := by
  unfold TypedConst.getAsUnsized
  by_cases h1 : c.rep = .concrete ⟨false, w⟩
  · have hr := C38_isRepresentable c
    rw [h1] at hr
    rw [if_pos h1]
    by_cases h2 : c.isRepresentable = true
    · have hm := hr.1 h2
      simp only [MachineRep.Mem] at hm ⊢
      simp only [Bool.false_eq_true, if_false] at hm ⊢
      simp only [h1, h2, true_or, true_and, if_true, if_pos hm, Option.some.injEq]
      constructor
      · intro h; omega
      · intro h; omega
    · have hm := fun h => h2 (hr.2 h)
      simp only [h1, h2]
      simp only [MachineRep.Mem] at hm ⊢
      simp only [Bool.false_eq_true, if_false] at hm ⊢
      constructor
      · intro h; cases h
      · rintro ⟨_, h3, h4⟩
        exact absurd (by rw [h3]; exact h4) hm
  · rw [if_neg h1]
    by_cases h2 : c.rep = .auto
    · rw [if_pos h2]
      simp only [h2, MachineRep.Mem]
      simp only [Bool.false_eq_true, if_false, or_true, true_and]
      constructor
      · intro h
        split at h
        · cases h; omega
        · cases h
      · rintro ⟨h3, h4⟩
        rw [if_pos (by rw [h3]; exact h4)]
        congr 1; omega
    · rw [if_neg h2]
      simp [h1, h2]

example : I32.isSuperset U16 = true ∧ I32.isSuperset U32 = false := by decide

/-! ## C39 -/

/-- Every sub-expression of `e` that the lenient evaluator reaches evaluates to a representable constant
(and variables hold validated values). -/
def AllRepresentable (scope : String → Out StrictValue) : Expr → Prop
  | .const c => c.isRepresentable = true
  | .binOp op r l rr => AllRepresentable scope l ∧ AllRepresentable scope rr ∧
      ∀ c, (Expr.binOp op r l rr).eval scope = .ok c → c.isRepresentable = true
  | .unaryOp op r e => AllRepresentable scope e ∧
      ∀ c, (Expr.unaryOp op r e).eval scope = .ok c → c.isRepresentable = true
  | .cast r b e => AllRepresentable scope e ∧
      ∀ c, (Expr.cast r b e).eval scope = .ok c → c.isRepresentable = true
  | .numVar x => ∀ s, scope x = .ok s → s.isValid = true

/-- forget the validity flag -/
def Out.forget : Out StrictValue → Out TypedConst
  | .ok s => .ok s.value
  | .err e => .err e
  | .panic => .panic

theorem forget_map (s : StrictValue) (f) : (s.map f).forget = f s.value := by
  unfold StrictValue.map
  cases f s.value <;> rfl

theorem forget_map2 (s o : StrictValue) (f) : (s.map2 o f).forget = f s.value o.value := by
  unfold StrictValue.map2
  cases f s.value o.value <;> rfl

/-- Strict and lenient evaluation agree on value, on every error and on every panic. -/
theorem C39_same_value (scope : String → Out StrictValue) (e : Expr) :
    (e.evalStrict scope).forget = e.eval scope := by
  induction e with
  | const c => rfl
  | binOp op r l rr ihl ihr =>
    simp only [Expr.evalStrict, Expr.eval, ← ihl, ← ihr]
    cases l.evalStrict scope with
    | ok a =>
      simp only [Out.bind, Out.forget]
      cases rr.evalStrict scope with
      | ok b => simp only [Out.bind]; exact forget_map2 a b _
      | err e => rfl
      | panic => rfl
    | err e => rfl
    | panic => rfl
  | unaryOp op r e ih =>
    simp only [Expr.evalStrict, Expr.eval, ← ih]
    cases e.evalStrict scope with
    | ok a => simp only [Out.bind]; exact forget_map a _
    | err e => rfl
    | panic => rfl
  | cast r b e ih =>
    simp only [Expr.evalStrict, Expr.eval, ← ih]
    cases e.evalStrict scope with
    | ok a => simp only [Out.bind]; exact forget_map a _
    | err e => rfl
    | panic => rfl
  | numVar x =>
    simp only [Expr.evalStrict, Expr.eval]
    cases scope x <;> rfl

theorem bind_ok {α β : Type} {x : Out α} {f : α → Out β} {b : β} :
    x.bind f = .ok b ↔ ∃ a, x = .ok a ∧ f a = .ok b := by
  cases x <;> simp [Out.bind]

theorem map_ok {s r : StrictValue} {f} (h : s.map f = .ok r) :
    f s.value = .ok r.value ∧ r.isValid = (s.isValid && r.value.isRepresentable) := by
  unfold StrictValue.map at h
  obtain ⟨v, h1, h2⟩ := bind_ok.1 h
  cases h2; exact ⟨h1, rfl⟩

theorem map2_ok {s o r : StrictValue} {f} (h : s.map2 o f = .ok r) :
    f s.value o.value = .ok r.value ∧ r.isValid = (s.isValid && o.isValid && r.value.isRepresentable) := by
  unfold StrictValue.map2 at h
  obtain ⟨v, h1, h2⟩ := bind_ok.1 h
  cases h2; exact ⟨h1, rfl⟩

/-- The result is marked valid iff every sub-expression's value is representable in its type. -/
theorem C39_valid_iff (scope : String → Out StrictValue) (e : Expr) (r : StrictValue)
    (h : e.evalStrict scope = .ok r) : r.isValid = true ↔ AllRepresentable scope e := by
  induction e generalizing r with
  | const c => cases h; simp [AllRepresentable, StrictValue.new]
  | binOp op rep l rr ihl ihr =>
    have hev := C39_same_value scope (.binOp op rep l rr)
    rw [h] at hev
    simp only [Expr.evalStrict] at h
    obtain ⟨a, ha, h⟩ := bind_ok.1 h
    obtain ⟨b, hb, h⟩ := bind_ok.1 h
    obtain ⟨h1, h2⟩ := map2_ok h
    rw [h2]
    simp only [Bool.and_eq_true, ihl a ha, ihr b hb, AllRepresentable, ← hev, Out.forget, Out.ok.injEq, and_assoc]
    simp
  | unaryOp op rep e ih =>
    have hev := C39_same_value scope (.unaryOp op rep e)
    rw [h] at hev
    simp only [Expr.evalStrict] at h
    obtain ⟨a, ha, h⟩ := bind_ok.1 h
    obtain ⟨h1, h2⟩ := map_ok h
    rw [h2]
    simp only [Bool.and_eq_true, ih a ha, AllRepresentable, ← hev, Out.forget, Out.ok.injEq]
    simp
  | cast rep b e ih =>
    have hev := C39_same_value scope (.cast rep b e)
    rw [h] at hev
    simp only [Expr.evalStrict] at h
    obtain ⟨a, ha, h⟩ := bind_ok.1 h
    obtain ⟨h1, h2⟩ := map_ok h
    rw [h2]
    simp only [Bool.and_eq_true, ih a ha, AllRepresentable, ← hev, Out.forget, Out.ok.injEq]
    simp
  | numVar x =>
    simp only [Expr.evalStrict] at h
    simp [AllRepresentable, h]

/-- When the strict result is valid, the value itself is representable in its type, provided variables
marked valid hold representable values (as `StrictValue::try_from` guarantees). -/
theorem C39_valid_value (scope : String → Out StrictValue)
    (hs : ∀ x s, scope x = .ok s → s.isValid = true → s.value.isRepresentable = true)
    (e : Expr) (r : StrictValue) (h : e.evalStrict scope = .ok r) (hv : r.isValid = true) :
    r.value.isRepresentable = true := by
  cases e with
  | const c => cases h; exact hv
  | binOp op rep l rr =>
    simp only [Expr.evalStrict] at h
    obtain ⟨a, ha, h⟩ := bind_ok.1 h
    obtain ⟨b, hb, h⟩ := bind_ok.1 h
    obtain ⟨h1, h2⟩ := map2_ok h
    rw [h2] at hv; simp at hv; exact hv.2
  | unaryOp op rep e =>
    simp only [Expr.evalStrict] at h
    obtain ⟨a, ha, h⟩ := bind_ok.1 h
    obtain ⟨h1, h2⟩ := map_ok h
    rw [h2] at hv; simp at hv; exact hv.2
  | cast rep b e =>
    simp only [Expr.evalStrict] at h
    obtain ⟨a, ha, h⟩ := bind_ok.1 h
    obtain ⟨h1, h2⟩ := map_ok h
    rw [h2] at hv; simp at hv; exact hv.2
  | numVar x => exact hs x r h hv

/-- The numeric results are the exact integer operations (truncating division). -/
theorem C39_binop_exact (op : BasicBinOp) (rep : Option MachineRep) (l r c : TypedConst)
    (h : evalBinOp op rep l r = .ok c) :
    (match op with
      | .add => c.val = l.val + r.val
      | .sub => c.val = l.val - r.val
      | .mul => c.val = l.val * r.val
      | .div => r.val ≠ 0 ∧ c.val = l.val.tdiv r.val
      | .rem => r.val > 0 ∧ c.val = l.val.tmod r.val) ∧
    (∀ m, rep = some m → c.rep = .concrete m) ∧
    (rep = none → (r.rep = .auto ∧ c.rep = l.rep) ∨ (l.rep = .auto ∧ c.rep = r.rep) ∨
      (l.rep = r.rep ∧ c.rep = l.rep)) := by
  unfold evalBinOp at h
  obtain ⟨raw, h1, h2⟩ := bind_ok.1 h
  have hrep : c.val = raw ∧ (∀ m, rep = some m → c.rep = .concrete m) ∧
    (rep = none → (r.rep = .auto ∧ c.rep = l.rep) ∨ (l.rep = .auto ∧ c.rep = r.rep) ∨
      (l.rep = r.rep ∧ c.rep = l.rep)) := by
    cases rep with
    | some m => cases h2; exact ⟨rfl, fun _ h => by cases h; rfl, fun h => by cases h⟩
    | none =>
      refine (fun (h : c.val = raw ∧ _) => ⟨h.1, fun _ h => (by cases h), fun _ => h.2⟩) ?_
      simp only at h2
      split at h2
      · rename_i hc
        cases h2
        refine ⟨rfl, ?_⟩
        rcases hc with hc | hc
        · exact .inr (.inr ⟨hc, rfl⟩)
        · refine .inl ⟨?_, rfl⟩
          cases hr : r.rep with
          | auto => rfl
          | concrete m => rw [hr] at hc; simp [NumRep.isAuto] at hc
      · split at h2
        · rename_i hc
          cases h2
          refine ⟨rfl, .inr (.inl ⟨?_, rfl⟩)⟩
          cases hr : l.rep with
          | auto => rfl
          | concrete m => rw [hr] at hc; simp [NumRep.isAuto] at hc
        · cases h2
  refine ⟨?_, hrep.2⟩
  rw [hrep.1]
  cases op with
  | add => cases h1; rfl
  | sub => cases h1; rfl
  | mul => cases h1; rfl
  | div =>
    simp only at h1 ⊢
    split at h1
    · cases h1
    · rename_i hz; cases h1; exact ⟨hz, rfl⟩
  | rem =>
    simp only at h1 ⊢
    split at h1
    · rename_i hz; cases h1; exact ⟨hz, rfl⟩
    · cases h1

/-- Non-vacuity: `(200u8 + 100u8) - 250u8` evaluates to `50u8` but is flagged invalid, because the
intermediate 300 is out of range. -/
example : (Expr.binOp .sub none (.binOp .add none (.const ⟨200, .concrete U8⟩) (.const ⟨100, .concrete U8⟩))
    (.const ⟨250, .concrete U8⟩)).evalStrict voidScope = .ok ⟨⟨50, .concrete U8⟩, false⟩ := by decide

end Num
end Doodle
