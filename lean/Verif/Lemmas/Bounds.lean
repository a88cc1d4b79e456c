import Verif.Spec.Interval

/-! Helper lemmas for `Verif.Props.Bounds`. -/

namespace Doodle

theorem sigBits_lt (x : Nat) : x < 2 ^ sigBits x := by
  unfold sigBits
  split
  · simp
  · exact Nat.lt_log2_self

theorem sigBits_le_of_lt {x n : Nat} (h : x < 2 ^ n) : sigBits x ≤ n := by
  unfold sigBits
  split
  · omega
  · rename_i hx
    have : x ≠ 0 := by simpa using hx
    exact (Nat.log2_lt this).2 h

theorem sigBits_pos {x : Nat} (h : x ≠ 0) : 0 < sigBits x := by
  unfold sigBits; split
  · contradiction
  · omega

theorem bmask_spec {x y : Nat} (h : bmask x = .ok y) :
    ∃ n, x < 2 ^ n ∧ y = 2 ^ n - 1 ∧ (0 < n → 2 ^ (n - 1) ≤ x) := by
  unfold bmask at h
  by_cases hx : x ≠ 0
  · rw [if_pos hx] at h
    unfold checkedShl at h
    by_cases c : x.log2 + 1 < 64
    · rw [if_pos c] at h
      simp only [Panicky.ok.injEq] at h
      refine ⟨x.log2 + 1, Nat.lt_log2_self, ?_, fun _ => ?_⟩
      · rw [← h, Nat.one_shiftLeft, Nat.mod_eq_of_lt]
        exact Nat.pow_lt_pow_right (by omega) c
      · simpa using Nat.log2_self_le hx
    · rw [if_neg c] at h; cases h
  · rw [if_neg hx] at h
    simp only [Panicky.ok.injEq] at h
    exact ⟨0, by omega, by omega, by omega⟩

/-- a number no greater than `x` is a bit-subset of `mask x` -/
theorem and_bmask {x y l : Nat} (h : bmask x = .ok y) (hl : l ≤ x) : l &&& y = l := by
  obtain ⟨n, h1, rfl, _⟩ := bmask_spec h
  rw [Nat.and_two_pow_sub_one_eq_mod, Nat.mod_eq_of_lt (by omega)]

/-- bit-subset implies ≤ -/
theorem le_of_and_eq {a b : Nat} (h : a &&& b = a) : a ≤ b := by
  rw [← h]; exact Nat.and_le_right

theorem bitsub_of_testBit {a b : Nat} (h : ∀ i, a.testBit i = true → b.testBit i = true) : a ≤ b := by
  apply le_of_and_eq
  apply Nat.eq_of_testBit_eq
  intro i
  rw [Nat.testBit_and]
  cases hi : a.testBit i with
  | false => rfl
  | true => rw [h i hi]; rfl

theorem testBit_of_bitsub {a b : Nat} (h : a &&& b = a) (i : Nat) (hi : a.testBit i = true) :
    b.testBit i = true := by
  rw [← h, Nat.testBit_and, Bool.and_eq_true] at hi
  exact hi.2

theorem xor_lt_same_high {x y n : Nat} (h : x ^^^ y < 2 ^ n) : x / 2 ^ n = y / 2 ^ n := by
  apply Nat.eq_of_testBit_eq
  intro i
  rw [Nat.testBit_div_two_pow, Nat.testBit_div_two_pow]
  have h2 : (x ^^^ y).testBit (i + n) = false := by
    apply Nat.testBit_lt_two_pow
    exact Nat.lt_of_lt_of_le h (Nat.pow_le_pow_right (by omega) (by omega))
  rw [Nat.testBit_xor] at h2
  simpa using h2

theorem xor_high_bit {x y n : Nat} (h1 : x < 2 ^ n) (h2 : y < 2 ^ n) : x ^^^ y < 2 ^ n :=
  Nat.xor_lt_two_pow h1 h2

/-- What `bitwise_bounds` computes: a common bit prefix `k` and bounds for the remaining low bits. -/
theorem bitwiseBounds_spec (b : Bounds) :
    ∃ k lo, b.bitwiseBounds = .ok (k, lo) ∧
      (∀ x, InInterval b x → ∃ l, x = k ||| l ∧ k &&& l = 0 ∧ InInterval lo l) ∧
      (b.max = none ↔ lo.max = none) ∧
      ((∃ n, b = Bounds.exact n ∧ k = n ∧ lo = Bounds.exact 0) ∨
        (b.max ≠ some b.min ∧ lo.max ≠ some lo.min)) ∧
      (b.Words → lo.Words) := by
  unfold Bounds.bitwiseBounds
  cases hm : b.max with
  | none =>
    refine ⟨0, b, rfl, fun x hx => ⟨x, by simp, by simp, hx⟩, by simp [hm], Or.inr ⟨by simp, by simp [hm]⟩, id⟩
  | some max =>
    simp only []
    by_cases c1 : b.min = max
    · rw [if_pos c1]
      refine ⟨_, _, rfl, fun x hx => ⟨0, ?_, by simp, by simp [InInterval, Bounds.exact]⟩, by simp [Bounds.exact],
        Or.inl ⟨b.min, ?_, rfl, rfl⟩, fun _ => by simp [Bounds.Words, Bounds.exact]⟩
      · have := hx.2 max hm
        have := hx.1
        simp; omega
      · cases b; simp_all [Bounds.exact]
    · rw [if_neg c1]
      have trivialCase : ∀ x, InInterval b x → ∃ l, x = 0 ||| l ∧ 0 &&& l = 0 ∧ InInterval b l :=
        fun x hx => ⟨x, by simp, by simp, hx⟩
      have hne : some max ≠ some b.min := by simp; omega
      cases hn : b.nbitsExact with
      | none =>
        exact ⟨0, b, rfl, trivialCase, by simp [hm], Or.inr ⟨hne, by rw [hm]; exact hne⟩, id⟩
      | some nbits =>
        simp only []
        have hs : sigBits b.min = nbits ∧ sigBits max = nbits := by
          unfold Bounds.nbitsExact Bounds.asExact Bounds.significantBits at hn
          simp only [hm, Option.map_some] at hn
          split at hn
          · cases hn; rename_i h; exact ⟨h.symm, rfl⟩
          · cases hn
        have hmin : b.min < 2 ^ nbits := by rw [← hs.1]; exact sigBits_lt _
        have hmax : max < 2 ^ nbits := by rw [← hs.2]; exact sigBits_lt _
        have hmb : sigBits (max ^^^ b.min) ≤ nbits := sigBits_le_of_lt (xor_high_bit hmax hmin)
        rw [if_neg (by omega)]
        by_cases c2 : nbits - sigBits (max ^^^ b.min) = 0
        · rw [if_pos c2]
          exact ⟨0, b, rfl, trivialCase, by simp [hm], Or.inr ⟨hne, by rw [hm]; exact hne⟩, id⟩
        · rw [if_neg c2]
          generalize hmbd : sigBits (max ^^^ b.min) = mb at *
          have hx : max ^^^ b.min < 2 ^ mb := by rw [← hmbd]; exact sigBits_lt _
          have hhigh := xor_lt_same_high hx
          have ek : ((1 <<< (nbits - mb)) - 1) <<< mb &&& max = (max / 2 ^ mb) <<< mb := by
            apply Nat.eq_of_testBit_eq
            intro i
            rw [Nat.testBit_and, Nat.testBit_shiftLeft, Nat.testBit_shiftLeft, Nat.one_shiftLeft,
              Nat.testBit_two_pow_sub_one, Nat.testBit_div_two_pow]
            by_cases hi : mb ≤ i
            · simp only [ge_iff_le, hi, decide_true, Bool.true_and]
              rw [Nat.sub_add_cancel hi]
              by_cases hi2 : i - mb < nbits - mb
              · simp [hi2]
              · have : max.testBit i = false := by
                  apply Nat.testBit_lt_two_pow
                  exact Nat.lt_of_lt_of_le hmax (Nat.pow_le_pow_right (by omega) (by omega))
                simp [this]
            · simp [hi]
          have elo : ∀ z, z &&& ((1 <<< mb) - 1) = z % 2 ^ mb := by
            intro z; rw [Nat.one_shiftLeft, Nat.and_two_pow_sub_one_eq_mod]
          rw [ek, elo, elo]
          refine ⟨_, _, rfl, fun x hxi => ?_, by simp [Bounds.new], Or.inr ⟨hne, ?_⟩, fun hw => ?_⟩
          · have h1 := hxi.1
            have h2 := hxi.2 max hm
            have hp : 0 < 2 ^ mb := Nat.two_pow_pos mb
            have q1 : b.min / 2 ^ mb ≤ x / 2 ^ mb := Nat.div_le_div_right h1
            have q2 : x / 2 ^ mb ≤ max / 2 ^ mb := Nat.div_le_div_right h2
            have qx : x / 2 ^ mb = max / 2 ^ mb := by omega
            have d1 := Nat.div_add_mod x (2 ^ mb)
            have d2 := Nat.div_add_mod max (2 ^ mb)
            have d3 := Nat.div_add_mod b.min (2 ^ mb)
            rw [qx] at d1
            rw [← hhigh] at d3
            refine ⟨x % 2 ^ mb, ?_, ?_, ?_, ?_⟩
            · rw [← Nat.shiftLeft_add_eq_or_of_lt (Nat.mod_lt _ hp), Nat.shiftLeft_eq, Nat.mul_comm]
              exact d1.symm
            · apply Nat.eq_of_testBit_eq
              intro i
              rw [Nat.testBit_and, Nat.testBit_shiftLeft, Nat.testBit_mod_two_pow, Nat.zero_testBit]
              by_cases hi : mb ≤ i
              · simp [Nat.not_lt.2 hi]
              · simp [hi]
            · show b.min % 2 ^ mb ≤ x % 2 ^ mb
              omega
            · intro m hmm
              cases hmm
              omega
          · simp only [Bounds.new, ne_eq, Option.some.injEq]
            intro e
            have d2 := Nat.div_add_mod max (2 ^ mb)
            have d3 := Nat.div_add_mod b.min (2 ^ mb)
            rw [← hhigh, ← e] at d3
            omega
          · refine ⟨Nat.lt_of_le_of_lt (Nat.mod_le _ _) hw.1, fun m hmm => ?_⟩
            cases hmm
            exact Nat.lt_of_le_of_lt (Nat.mod_le _ _) (hw.2 _ hm)

end Doodle
