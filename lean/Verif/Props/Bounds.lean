import Verif.Lemmas.Bounds

/-!
Property C04: interval arithmetic on `Bounds` is sound.

`InInterval b x` (Spec/Interval) is plain interval membership.  Each theorem says: members of the
operands give, under the mathematical operation, a member of the resulting interval.
-/

namespace Doodle
namespace Bounds

theorem C04_contains (b : Bounds) (x : Nat) : b.contains x = true ↔ InInterval b x := by
  unfold contains InInterval
  cases h : b.max with
  | none => simp
  | some m => simp

theorem C04_exact (n x : Nat) : InInterval (exact n) x ↔ x = n := by
  simp only [InInterval, exact, Option.some.injEq]
  constructor
  · rintro ⟨h1, h2⟩; have := h2 n rfl; omega
  · rintro rfl; exact ⟨Nat.le_refl _, fun m h => by omega⟩

theorem C04_any (x : Nat) : InInterval any x := by
  simp [InInterval, any]

theorem C04_asExact (b : Bounds) (n : Nat) :
    b.asExact = some n ↔ ∀ x, InInterval b x ↔ x = n := by
  constructor
  · intro h x
    unfold asExact at h
    cases hm : b.max with
    | none => rw [hm] at h; cases h
    | some m =>
      rw [hm] at h
      simp only [] at h
      split at h
      · cases h
        simp only [InInterval, hm, Option.some.injEq]
        constructor
        · rintro ⟨h1, h2⟩; have := h2 _ rfl; omega
        · rintro rfl; exact ⟨by omega, fun m h => by omega⟩
      · cases h
  · intro h
    unfold asExact
    cases hm : b.max with
    | none =>
      exfalso
      have h1 := (h b.min).1 ⟨Nat.le_refl _, by simp [hm]⟩
      have h2 := (h (b.min + 1)).1 ⟨by omega, by simp [hm]⟩
      omega
    | some m =>
      have hn := (h n).2 rfl
      have hb := (h b.min).1 ⟨Nat.le_refl _, fun m' hm' => Nat.le_trans hn.1 (hn.2 _ hm')⟩
      have hm2 := (h m).1 ⟨Nat.le_trans hn.1 (hn.2 _ hm), fun m' hm' => by
        rw [hm] at hm'; cases hm'; exact Nat.le_refl _⟩
      simp; omega

theorem C04_union_left (a b : Bounds) (x : Nat) (h : InInterval a x) : InInterval (union a b) x := by
  unfold union InInterval at *
  refine ⟨Nat.le_trans (Nat.min_le_left _ _) h.1, fun m hm => ?_⟩
  cases ha : a.max <;> cases hb : b.max <;> simp only [ha, hb] at hm <;> cases hm
  exact Nat.le_trans (h.2 _ ha) (Nat.le_max_left _ _)

theorem C04_union_right (a b : Bounds) (x : Nat) (h : InInterval b x) : InInterval (union a b) x := by
  unfold union InInterval at *
  refine ⟨Nat.le_trans (Nat.min_le_right _ _) h.1, fun m hm => ?_⟩
  cases ha : a.max <;> cases hb : b.max <;> simp only [ha, hb] at hm <;> cases hm
  exact Nat.le_trans (h.2 _ hb) (Nat.le_max_right _ _)

/-- `union` is the least interval containing both (non-empty) operands. -/
theorem C04_union_least (a b c : Bounds) (ha : InInterval a a.min) (hb : InInterval b b.min)
    (h : ∀ x, InInterval a x ∨ InInterval b x → InInterval c x) (x : Nat)
    (hx : InInterval (union a b) x) : InInterval c x := by
  have h1 := h _ (Or.inl ha)
  have h2 := h _ (Or.inr hb)
  unfold union InInterval at *
  refine ⟨?_, fun m hm => ?_⟩
  · refine Nat.le_trans ?_ hx.1
    show c.min ≤ Min.min a.min b.min
    omega
  · cases hma : a.max with
    | none =>
      have := (h (a.min + m + 1) (Or.inl ⟨by omega, by simp [hma]⟩)).2 m hm
      omega
    | some ma =>
      cases hmb : b.max with
      | none =>
        have := (h (b.min + m + 1) (Or.inr ⟨by omega, by simp [hmb]⟩)).2 m hm
        omega
      | some mb =>
        have g1 := (h ma (Or.inl ⟨ha.2 _ hma, fun m' e => by rw [hma] at e; cases e; exact Nat.le_refl _⟩)).2 m hm
        have g2 := (h mb (Or.inr ⟨hb.2 _ hmb, fun m' e => by rw [hmb] at e; cases e; exact Nat.le_refl _⟩)).2 m hm
        have := hx.2 (Nat.max ma mb) (by simp [hma, hmb])
        have e : Nat.max ma mb = Max.max ma mb := rfl
        omega

/-- `clamp` is exact: it returns the intersection with `[lo, hi]`, or `None` when that is empty. -/
theorem C04_clamp (a : Bounds) (lo hi : Nat) (hle : lo ≤ hi) :
    ∃ r, a.clamp lo hi = .ok r ∧
      ∀ x, (∃ c, r = some c ∧ InInterval c x) ↔ InInterval a x ∧ lo ≤ x ∧ x ≤ hi := by
  unfold clamp
  rw [if_pos hle]
  have e1 : ∀ p q, Nat.max p q = Max.max p q := fun _ _ => rfl
  have e2 : ∀ p q, Nat.min p q = Min.min p q := fun _ _ => rfl
  cases hm : a.max with
  | none =>
    simp only []
    split
    · refine ⟨none, rfl, fun x => ?_⟩
      rename_i h
      rw [e1] at h
      simp only [reduceCtorEq, false_and, exists_false, false_iff, not_and]
      intro hx
      have := hx.1
      omega
    · refine ⟨_, rfl, fun x => ?_⟩
      simp only [Option.some.injEq, exists_eq_left', InInterval, hm, reduceCtorEq, false_implies,
        implies_true, and_true, e1, forall_eq']
      omega
  | some m =>
    simp only []
    split
    · refine ⟨none, rfl, fun x => ?_⟩
      rename_i h
      rw [e1, e2] at h
      simp only [reduceCtorEq, false_and, exists_false, false_iff, not_and]
      intro hx
      have := hx.1
      have := hx.2 _ hm
      omega
    · refine ⟨_, rfl, fun x => ?_⟩
      simp only [Option.some.injEq, exists_eq_left', InInterval, hm, e1, e2, forall_eq']
      omega

/-- bits to bytes: the number of bytes needed for `x` bits is `⌈x/8⌉` -/
theorem C04_bitsToBytes (a : Bounds) (x : Nat) (h : InInterval a x) :
    InInterval a.bitsToBytes ((x + 7) / 8) := by
  have e : ∀ n, divCeil8 n = (n + 7) / 8 := by intro n; unfold divCeil8; split <;> omega
  unfold bitsToBytes
  refine ⟨?_, fun m hm => ?_⟩
  · show divCeil8 a.min ≤ _
    rw [e]; have := h.1; omega
  · cases ha : a.max with
    | none => simp [ha] at hm
    | some m' =>
      simp only [ha, Option.map_some, Option.some.injEq] at hm
      have := h.2 _ ha
      rw [← hm, e]; omega

theorem C04_add (a b : Bounds) (x y : Nat) (hx : InInterval a x) (hy : InInterval b y) :
    InInterval (add a b) (x + y) := by
  unfold add checkedAdd Doodle.checkedAdd
  by_cases c : a.min + b.min < usizeCard
  · simp only [c, if_true, Option.getD_some]
    refine ⟨Nat.add_le_add hx.1 hy.1, fun m hm => ?_⟩
    cases ha : a.max <;> cases hb : b.max <;> simp only [ha, hb] at hm <;> try cases hm
    split at hm <;> cases hm
    exact Nat.add_le_add (hx.2 _ ha) (hy.2 _ hb)
  · simp only [c, if_false, Option.getD_none]; exact C04_any _

theorem C04_sub (a b : Bounds) (x y : Nat) (hx : InInterval a x) (hy : InInterval b y) :
    InInterval (sub a b) (x - y) := by
  unfold sub
  refine ⟨?_, fun m hm => ?_⟩
  · cases hb : b.max with
    | none => simp
    | some m2 =>
      have := hx.1; have := hy.2 _ hb
      show a.min - m2 ≤ x - y
      omega
  · cases ha : a.max with
    | none => simp [ha] at hm
    | some m1 =>
      simp only [ha, Option.map_some, Option.some.injEq] at hm
      have := hx.2 _ ha; have := hy.1
      omega

theorem C04_mul (a b : Bounds) (x y : Nat) (hx : InInterval a x) (hy : InInterval b y) :
    InInterval (mul a b) (x * y) := by
  unfold mul checkedMul Doodle.checkedMul
  by_cases c : a.min * b.min < usizeCard
  · simp only [c, if_true, Option.getD_some]
    refine ⟨Nat.mul_le_mul hx.1 hy.1, fun m hm => ?_⟩
    cases ha : a.max <;> cases hb : b.max <;> simp only [ha, hb] at hm <;> try cases hm
    split at hm <;> cases hm
    exact Nat.mul_le_mul (hx.2 _ ha) (hy.2 _ hb)
  · simp only [c, if_false, Option.getD_none]; exact C04_any _

theorem C04_div (a b : Bounds) (x y : Nat) (hx : InInterval a x) (hy : InInterval b y)
    (hy0 : y ≠ 0) : InInterval (div a b) (x / y) := by
  have hmaxpart : ∀ m1, a.max = some m1 → x / y ≤ m1 / Nat.max b.min 1 := by
    intro m1 ha
    have h1 : x / y ≤ m1 / y := Nat.div_le_div_right (hx.2 _ ha)
    refine Nat.le_trans h1 (Nat.div_le_div_left ?_ ?_)
    · show Max.max b.min 1 ≤ y
      have := hy.1; omega
    · show 0 < Max.max b.min 1
      omega
  have hmax : ∀ m, a.max.map (fun m1 => m1 / Nat.max b.min 1) = some m → x / y ≤ m := by
    intro m hm
    cases ha : a.max with
    | none => simp [ha] at hm
    | some m1 =>
      simp only [ha, Option.map_some, Option.some.injEq] at hm
      rw [← hm]; exact hmaxpart m1 ha
  unfold div checkedDiv
  cases hb : b.max with
  | none =>
    simp only [Option.getD_some]
    exact ⟨Nat.zero_le _, hmax⟩
  | some m2 =>
    simp only [Doodle.checkedDiv]
    by_cases c : m2 = 0
    · have := hy.2 _ hb; omega
    · simp only [c, if_false, Option.getD_some]
      refine ⟨?_, hmax⟩
      show a.min / m2 ≤ x / y
      exact Nat.le_trans (Nat.div_le_div_right hx.1) (Nat.div_le_div_left (hy.2 _ hb) (by omega))

/-- Remainder: sound whenever a concrete remainder exists at all; the only panic is an exactly-zero
divisor with an exact dividend, for which no concrete remainder exists. -/
theorem C04_rem (a b : Bounds) (x y : Nat) (hx : InInterval a x) (hy : InInterval b y)
    (hy0 : y ≠ 0) : ∃ r, rem a b = .ok r ∧ InInterval r (x % y) := by
  unfold rem
  cases hb : b.asExact with
  | none => exact ⟨_, rfl, C04_any _⟩
  | some n =>
    cases ha : a.asExact with
    | none => exact ⟨_, rfl, C04_any _⟩
    | some k =>
      have e1 := ((C04_asExact b n).1 hb y).1 hy
      have e2 := ((C04_asExact a k).1 ha x).1 hx
      subst e1; subst e2
      simp only [checkedRem, hy0, if_false]
      exact ⟨_, rfl, (C04_exact _ _).2 rfl⟩

theorem C04_shr (a b : Bounds) (x y : Nat) (hx : InInterval a x) (hy : InInterval b y) :
    InInterval (shr a b) (x >>> y) := by
  have mono : ∀ {p q r s : Nat}, p ≤ q → s ≤ r → p >>> r ≤ q >>> s := by
    intro p q r s h1 h2
    rw [Nat.shiftRight_eq_div_pow, Nat.shiftRight_eq_div_pow]
    exact Nat.le_trans (Nat.div_le_div_right h1)
      (Nat.div_le_div_left (Nat.pow_le_pow_right (by omega) h2) (Nat.two_pow_pos _))
  have hmax : ∀ min0, tryU32 b.min = some min0 → ∀ m, (match a.max with
        | some m1 => Doodle.checkedShr m1 min0
        | none => none) = some m → x >>> y ≤ m := by
    intro min0 h0 m hm
    unfold tryU32 at h0
    split at h0 <;> cases h0
    cases ha : a.max with
    | none => simp [ha] at hm
    | some m1 =>
      simp only [ha, Doodle.checkedShr] at hm
      split at hm <;> cases hm
      exact mono (hx.2 _ ha) hy.1
  unfold shr checkedShr
  cases hb : b.max with
  | none =>
    simp only []
    cases h0 : tryU32 b.min with
    | none => exact C04_any _
    | some min0 => exact ⟨Nat.zero_le _, hmax min0 h0⟩
  | some m2 =>
    simp only []
    cases h2 : tryU32 m2 with
    | none => exact C04_any _
    | some m2' =>
      unfold tryU32 at h2
      split at h2 <;> cases h2
      simp only [Doodle.checkedShr]
      split
      · exact C04_any _
      · rename_i hh
        split at hh <;> cases hh
        cases h0 : tryU32 b.min with
        | none => exact C04_any _
        | some min0 => exact ⟨mono hx.1 (hy.2 _ hb), hmax min0 h0⟩

/-- The full claim for shift-left: when the concrete shift does not overflow, its value is in the
computed interval. -/
def ShlSound : Prop :=
  ∀ (a b : Bounds) (x y : Nat), a.Words → b.Words → InInterval a x → InInterval b y →
    x <<< y < 2 ^ 64 → InInterval (shl a b) (x <<< y)

/-- Refuted: with `a = 0..=2^63`, `b = 0..=1`, the upper end is computed as `2^63 << 1 = 0`. -/
theorem C04_shl_refuted : ¬ ShlSound := by
  intro h
  have := h ⟨0, some (2 ^ 63)⟩ ⟨0, some 1⟩ 1 0 ⟨by decide, by simp⟩ ⟨by decide, by simp⟩
    ⟨by decide, by simp⟩ ⟨by decide, by simp⟩ (by decide)
  have := this.2 0 (by decide +kernel)
  simp at this

/-- Sound when the upper corner does not overflow the word. -/
theorem C04_shl_partial (a b : Bounds) (x y : Nat) (hx : InInterval a x) (hy : InInterval b y)
    (hno : ∀ m1 m2, a.max = some m1 → b.max = some m2 → m2 < 64 → m1 <<< m2 < 2 ^ 64) :
    InInterval (shl a b) (x <<< y) := by
  have mono : ∀ {p q r s : Nat}, p ≤ q → r ≤ s → p <<< r ≤ q <<< s := by
    intro p q r s h1 h2
    rw [Nat.shiftLeft_eq, Nat.shiftLeft_eq]
    exact Nat.mul_le_mul h1 (Nat.pow_le_pow_right (by omega) h2)
  unfold shl checkedShl
  cases h0 : tryU32 b.min with
  | none => exact C04_any _
  | some min2 =>
    unfold tryU32 at h0
    split at h0 <;> cases h0
    simp only []
    cases h1 : Doodle.checkedShl a.min b.min with
    | none => exact C04_any _
    | some mn =>
      unfold Doodle.checkedShl at h1
      split at h1 <;> cases h1
      have hmn : (a.min <<< b.min) % usizeCard ≤ x <<< y :=
        Nat.le_trans (Nat.mod_le _ _) (mono hx.1 hy.1)
      simp only []
      cases ha : a.max with
      | none => exact ⟨hmn, by simp⟩
      | some m1 =>
        cases hb : b.max with
        | none => exact ⟨hmn, by simp⟩
        | some m2 =>
          simp only []
          cases h2 : tryU32 m2 with
          | none => exact C04_any _
          | some m2' =>
            unfold tryU32 at h2
            split at h2 <;> cases h2
            refine ⟨hmn, fun m hm => ?_⟩
            simp only [Doodle.checkedShl] at hm
            split at hm
            · rename_i hlt
              cases hm
              have := hno m1 m2 ha hb hlt
              rw [usizeCard, Nat.mod_eq_of_lt this]
              exact mono (hx.2 _ ha) (hy.2 _ hb)
            · cases hm

example : InInterval (shl ⟨1, some 3⟩ ⟨2, some 4⟩) (2 <<< 3) :=
  C04_shl_partial _ _ _ _ ⟨by decide, by simp⟩ ⟨by decide, by simp⟩ (by simp)

/-- Bit-or: whenever the operation does not panic, its result is sound. -/
theorem C04_bitOr (a b r : Bounds) (x y : Nat) (hx : InInterval a x) (hy : InInterval b y)
    (h : bitOr a b = .ok r) : InInterval r (x ||| y) := by
  obtain ⟨k1, lo1, e1, s1, _, _, _⟩ := bitwiseBounds_spec a
  obtain ⟨k2, lo2, e2, s2, _, _, _⟩ := bitwiseBounds_spec b
  unfold bitOr at h
  rw [e1, e2] at h
  simp only [] at h
  obtain ⟨l1, hl1, _, hi1⟩ := s1 x hx
  obtain ⟨l2, hl2, _, hi2⟩ := s2 y hy
  have hmin : Nat.max a.min b.min ≤ x ||| y := by
    have g1 : x ≤ x ||| y := Nat.left_le_or
    have g2 : y ≤ x ||| y := Nat.right_le_or
    have := hx.1; have := hy.1
    show Max.max _ _ ≤ _
    omega
  cases hmax : bitOrMax k1 k2 lo1 lo2 with
  | panic => rw [hmax] at h; cases h
  | ok mx =>
    rw [hmax] at h
    cases h
    refine ⟨hmin, fun m hm => ?_⟩
    cases hm
    unfold bitOrMax at hmax
    cases hm1 : lo1.max with
    | none => simp [hm1] at hmax
    | some m1 =>
      cases hm2 : lo2.max with
      | none => simp [hm1, hm2] at hmax
      | some m2 =>
        cases hk1 : bmask m1 with
        | panic => simp [hm1, hm2, hk1] at hmax
        | ok x1 =>
          cases hk2 : bmask m2 with
          | panic => simp [hm1, hm2, hk1, hk2] at hmax
          | ok x2 =>
            simp only [hm1, hm2, hk1, hk2, Panicky.ok.injEq, Option.some.injEq] at hmax
            rw [← hmax]
            apply bitsub_of_testBit
            intro i hi
            have t1 := testBit_of_bitsub (and_bmask hk1 (hi1.2 _ hm1)) i
            have t2 := testBit_of_bitsub (and_bmask hk2 (hi2.2 _ hm2)) i
            rw [hl1, hl2] at hi
            simp only [Nat.testBit_or, Bool.or_eq_true] at hi ⊢
            rcases hi with (hi | hi) | (hi | hi)
            · exact Or.inl (Or.inl hi)
            · exact Or.inr (Or.inl (t1 hi))
            · exact Or.inl (Or.inr hi)
            · exact Or.inr (Or.inr (t2 hi))

theorem C04_bitOr_ok : bitOr ⟨5, some 9⟩ ⟨2, some 3⟩ = .ok ⟨5, some 15⟩ := by decide +kernel

/-- Bit-or can panic (`mask` of a number with the top bit set), so the operation is not total. -/
theorem C04_bitOr_panics : bitOr ⟨0, some (2 ^ 63)⟩ (exact 0) = .panic := by decide +kernel

/-- but not when all upper ends are below `2^63` -/
theorem C04_bitOr_no_panic (a b : Bounds)
    (ha : ∀ m, a.max = some m → m < 2 ^ 63 ∧ a.min ≤ m)
    (hb : ∀ m, b.max = some m → m < 2 ^ 63 ∧ b.min ≤ m) : bitOr a b ≠ .panic := by
  have key : ∀ b : Bounds, (∀ m, b.max = some m → m < 2 ^ 63 ∧ b.min ≤ m) →
      ∃ k lo, b.bitwiseBounds = .ok (k, lo) ∧ ∀ m, lo.max = some m → ∃ y, bmask m = .ok y := by
    intro b hb
    obtain ⟨k, lo, e, s, hn, _, _⟩ := bitwiseBounds_spec b
    refine ⟨k, lo, e, fun m hm => ?_⟩
    have hlt : m < 2 ^ 63 := by
      unfold bitwiseBounds at e
      cases hbm : b.max with
      | none => rw [hn.1 hbm] at hm; cases hm
      | some mx =>
        have hmx := hb mx hbm
        simp only [hbm] at e
        split at e
        · cases e; cases hm; simp
        · split at e
          · cases e; rw [hbm] at hm; cases hm; exact hmx.1
          · split at e
            · cases e
            · split at e
              · cases e; rw [hbm] at hm; cases hm; exact hmx.1
              · cases e; cases hm
                exact Nat.lt_of_le_of_lt Nat.and_le_left hmx.1
    unfold bmask
    by_cases c : m ≠ 0
    · rw [if_pos c]
      have : m.log2 < 63 := (Nat.log2_lt c).2 hlt
      simp only [Doodle.checkedShl, show m.log2 + 1 < 64 by omega, if_true]
      exact ⟨_, rfl⟩
    · rw [if_neg c]; exact ⟨_, rfl⟩
  obtain ⟨k1, lo1, e1, f1⟩ := key a ha
  obtain ⟨k2, lo2, e2, f2⟩ := key b hb
  unfold bitOr
  rw [e1, e2]
  simp only []
  have : ∃ r, bitOrMax k1 k2 lo1 lo2 = .ok r := by
    unfold bitOrMax
    cases hm1 : lo1.max with
    | none => exact ⟨_, rfl⟩
    | some m1 =>
      cases hm2 : lo2.max with
      | none => exact ⟨_, rfl⟩
      | some m2 =>
        obtain ⟨y1, g1⟩ := f1 _ hm1
        obtain ⟨y2, g2⟩ := f2 _ hm2
        simp only [g1, g2]
        exact ⟨_, rfl⟩
  obtain ⟨r, hr⟩ := this
  rw [hr]
  simp

/-- The full claim for bit-and. -/
def BitAndSound : Prop :=
  ∀ (a b r : Bounds) (x y : Nat), InInterval a x → InInterval b y → bitAnd a b = .ok r →
    InInterval r (x &&& y)

/-- Refuted: `15 & (0..=255)` is computed as exactly `0`. -/
theorem C04_bitAnd_refuted : ¬ BitAndSound := by
  intro h
  have := h (exact 15) ⟨0, some 255⟩ (exact 0) 15 15 ⟨by decide, by simp [exact]⟩
    ⟨by decide, by simp⟩ (by decide +kernel)
  have := this.2 0 rfl
  simp at this

/-- What holds: bit-and is sound unless exactly one operand is exact and the low part of the other
(the part below the common bit prefix of its endpoints) can be zero. -/
theorem C04_bitAnd_partial (a b r : Bounds) (x y : Nat) (hx : InInterval a x) (hy : InInterval b y)
    (h : bitAnd a b = .ok r)
    (hA : a.max = some a.min → b.max ≠ some b.min →
      ∀ k lo, b.bitwiseBounds = .ok (k, lo) → lo.min ≠ 0)
    (hB : b.max = some b.min → a.max ≠ some a.min →
      ∀ k lo, a.bitwiseBounds = .ok (k, lo) → lo.min ≠ 0) :
    InInterval r (x &&& y) := by
  obtain ⟨k1, lo1, e1, s1, n1, ex1, _⟩ := bitwiseBounds_spec a
  obtain ⟨k2, lo2, e2, s2, n2, ex2, _⟩ := bitwiseBounds_spec b
  unfold bitAnd at h
  rw [e1, e2] at h
  simp only [] at h
  obtain ⟨l1, hl1, _, hi1⟩ := s1 x hx
  obtain ⟨l2, hl2, _, hi2⟩ := s2 y hy
  have hmin : k1 &&& k2 ≤ x &&& y := by
    apply bitsub_of_testBit
    intro i hi
    rw [hl1, hl2]
    simp only [Nat.testBit_and, Nat.testBit_or, Bool.and_eq_true, Bool.or_eq_true] at hi ⊢
    exact ⟨Or.inl hi.1, Or.inl hi.2⟩
  -- upper bound from bit-supersets of the low parts
  have upper : ∀ u1 u2, l1 &&& u1 = l1 → l2 &&& u2 = l2 → x &&& y ≤ blendBits k1 k2 u1 u2 := by
    intro u1 u2 h1 h2
    apply bitsub_of_testBit
    intro i hi
    have t1 := testBit_of_bitsub h1 i
    have t2 := testBit_of_bitsub h2 i
    rw [hl1, hl2] at hi
    unfold blendBits
    simp only [Nat.testBit_and, Nat.testBit_or, Bool.and_eq_true, Bool.or_eq_true] at hi ⊢
    rcases hi with ⟨hi1 | hi1, hi2 | hi2⟩
    · exact Or.inl (Or.inl (Or.inl ⟨hi1, hi2⟩))
    · exact Or.inl (Or.inr ⟨hi1, t2 hi2⟩)
    · exact Or.inr ⟨t1 hi1, hi2⟩
    · exact Or.inl (Or.inl (Or.inr ⟨t1 hi1, t2 hi2⟩))
  cases hmax : bitAndMax k1 k2 lo1 lo2 with
  | panic => rw [hmax] at h; cases h
  | ok mx =>
  rw [hmax] at h
  cases h
  refine ⟨hmin, fun m hm => ?_⟩
  cases hm
  unfold bitAndMax at hmax
  cases hm1 : lo1.max with
  | none => simp [hm1] at hmax
  | some m1 =>
    cases hm2 : lo2.max with
    | none => simp [hm1, hm2] at hmax
    | some m2 =>
      simp only [hm1, hm2] at hmax
      by_cases c1 : lo1.min = m1
      · rw [if_pos c1] at hmax
        rcases ex1 with ⟨n, rfl, rfl, rfl⟩ | ⟨_, hne⟩
        rotate_left
        · exact absurd (by rw [hm1, c1]) hne
        cases hm1
        have hl10 : l1 = 0 := by have := hi1.2 0 rfl; omega
        by_cases c2 : lo2.min = m2
        · rw [if_pos c2] at hmax
          rcases ex2 with ⟨n', rfl, rfl, rfl⟩ | ⟨_, hne⟩
          rotate_left
          · exact absurd (by rw [hm2, c2]) hne
          cases hm2
          have hl20 : l2 = 0 := by have := hi2.2 0 rfl; omega
          cases hmax
          exact upper 0 0 (by simp [hl10]) (by simp [hl20])
        · rw [if_neg c2] at hmax
          have hb : b.max ≠ some b.min := by
            rcases ex2 with ⟨n', rfl, rfl, rfl⟩ | ⟨hb, _⟩
            · cases hm2; exact absurd rfl c2
            · exact hb
          have hlo := hA rfl hb _ _ e2
          unfold bestMask at hmax
          have hnc : lo2.contains 0 = false := by
            unfold contains
            rw [decide_eq_false (by omega)]; rfl
          rw [hnc, if_neg (by simp), hm2] at hmax
          dsimp only [] at hmax
          cases hk2 : bmask m2 with
          | panic => rw [hk2] at hmax; cases hmax
          | ok x2 =>
            rw [hk2] at hmax
            cases hmax
            exact upper 0 x2 (by simp [hl10]) (and_bmask hk2 (hi2.2 _ hm2))
      · rw [if_neg c1] at hmax
        have ha : a.max ≠ some a.min := by
          rcases ex1 with ⟨n', rfl, rfl, rfl⟩ | ⟨ha, _⟩
          · cases hm1; exact absurd rfl c1
          · exact ha
        by_cases c2 : lo2.min = m2
        · rw [if_pos c2] at hmax
          rcases ex2 with ⟨n', rfl, rfl, rfl⟩ | ⟨_, hne⟩
          rotate_left
          · exact absurd (by rw [hm2, c2]) hne
          cases hm2
          have hl20 : l2 = 0 := by have := hi2.2 0 rfl; omega
          have hlo := hB rfl ha _ _ e1
          unfold bestMask at hmax
          have hnc : lo1.contains 0 = false := by
            unfold contains
            rw [decide_eq_false (by omega)]; rfl
          rw [hnc, if_neg (by simp), hm1] at hmax
          dsimp only [] at hmax
          cases hk1 : bmask m1 with
          | panic => rw [hk1] at hmax; cases hmax
          | ok x1 =>
            rw [hk1] at hmax
            cases hmax
            exact upper x1 0 (and_bmask hk1 (hi1.2 _ hm1)) (by simp [hl20])
        · rw [if_neg c2] at hmax
          cases hk1 : bmask m1 with
          | panic => rw [hk1] at hmax; cases hmax
          | ok x1 =>
            cases hk2 : bmask m2 with
            | panic => rw [hk1, hk2] at hmax; cases hmax
            | ok x2 =>
              rw [hk1, hk2] at hmax
              cases hmax
              exact upper x1 x2 (and_bmask hk1 (hi1.2 _ hm1)) (and_bmask hk2 (hi2.2 _ hm2))

/-- Non-vacuity: both operands inexact. -/
example : bitAnd ⟨0, some 10⟩ ⟨1, some 3⟩ = .ok ⟨0, some 3⟩ := by decide +kernel

/-- Results have machine-word endpoints. -/
theorem C04_add_words (a b : Bounds) : (add a b).Words := by
  unfold add checkedAdd Doodle.checkedAdd
  by_cases c : a.min + b.min < usizeCard
  · simp only [c, if_true, Option.getD_some]
    refine ⟨c, fun m hm => ?_⟩
    cases hma : a.max <;> cases hmb : b.max <;> simp only [hma, hmb] at hm <;> try cases hm
    split at hm <;> cases hm
    assumption
  · simp only [c, if_false, Option.getD_none]; simp [Words, any]

theorem C04_mul_words (a b : Bounds) : (mul a b).Words := by
  unfold mul checkedMul Doodle.checkedMul
  by_cases c : a.min * b.min < usizeCard
  · simp only [c, if_true, Option.getD_some]
    refine ⟨c, fun m hm => ?_⟩
    cases hma : a.max <;> cases hmb : b.max <;> simp only [hma, hmb] at hm <;> try cases hm
    split at hm <;> cases hm
    assumption
  · simp only [c, if_false, Option.getD_none]; simp [Words, any]

example : InInterval (add ⟨1, some 3⟩ ⟨2, none⟩) (2 + 100) :=
  C04_add _ _ _ _ ⟨by decide, by simp⟩ ⟨by decide, by simp⟩

end Bounds
end Doodle
