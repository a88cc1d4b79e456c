import Verif.Model.ByteSet

/-! Helper lemmas for `Verif.Props.ByteSet`. -/

namespace Doodle
namespace ByteSet

theorem shl_getLsbD (i j : Nat) (hi : i < 64) :
    (1#64 <<< i).getLsbD j = decide (j = i) := by
  simp only [BitVec.getLsbD_shiftLeft, BitVec.getLsbD_one]
  by_cases h : j = i
  · subst h; simp [hi]
  · simp only [h, decide_false]
    by_cases h1 : j < 64 <;> by_cases h2 : j < i <;> simp [h1, h2]
    omega

theorem testbit_eq (x : BitVec 64) (i : Nat) (hi : i < 64) :
    ((x &&& (1#64 <<< i)) != 0#64) = x.getLsbD i := by
  by_cases h : x.getLsbD i
  · rw [h]
    simp only [bne_iff_ne, ne_eq]
    intro hc
    have := congrArg (fun y => y.getLsbD i) hc
    simp [BitVec.getLsbD_and, shl_getLsbD i i hi, h] at this
  · have h' : x.getLsbD i = false := by simpa using h
    rw [h']
    simp only [bne_eq_false_iff_eq]
    apply BitVec.eq_of_getLsbD_eq
    intro j hj
    simp only [BitVec.getLsbD_and, shl_getLsbD i j hi, BitVec.getLsbD_zero]
    by_cases e : j = i
    · subst e; simp [h']
    · simp [e]

/-- membership as bit lookup in one of the four words -/
def bit (s : ByteSet) (n : Nat) : Bool :=
  if n < 64 then s.q0.getLsbD n
  else if n < 128 then s.q1.getLsbD (n - 64)
  else if n < 192 then s.q2.getLsbD (n - 128)
  else s.q3.getLsbD (n - 192)

theorem quad_cases (b : UInt8) :
    (b ≤ 63 ↔ b.toNat < 64) ∧ (b ≤ 127 ↔ b.toNat < 128) ∧ (b ≤ 191 ↔ b.toNat < 192) := by
  simp only [UInt8.le_iff_toNat_le]
  refine ⟨?_, ?_, ?_⟩ <;>
    (constructor <;> intro h <;> simp at * <;> omega)

theorem sub_toNat (b c : UInt8) (h : c.toNat ≤ b.toNat) : (b - c).toNat = b.toNat - c.toNat := by
  apply UInt8.toNat_sub_of_le
  rwa [UInt8.le_iff_toNat_le]

theorem contains_eq (s : ByteSet) (b : UInt8) : s.contains b = s.bit b.toNat := by
  obtain ⟨h1, h2, h3⟩ := quad_cases b
  have hb := b.toNat_lt
  unfold contains getBitWith bit
  by_cases c1 : b.toNat < 64
  · simp only [h1.2 c1, c1, if_true]; exact testbit_eq _ _ c1
  · rw [if_neg (by rw [h1]; exact c1), if_neg c1]
    by_cases c2 : b.toNat < 128
    · rw [if_pos (h2.2 c2), if_pos c2]
      have e : (b - 64).toNat = b.toNat - 64 := sub_toNat b 64 (by simp; omega)
      show (_ &&& (1#64 <<< (b - _).toNat) != 0#64) = _
      rw [e]; exact testbit_eq _ _ (by omega)
    · rw [if_neg (by rw [h2]; exact c2), if_neg c2]
      by_cases c3 : b.toNat < 192
      · rw [if_pos (h3.2 c3), if_pos c3]
        have e : (b - 128).toNat = b.toNat - 128 := sub_toNat b 128 (by simp; omega)
        show (_ &&& (1#64 <<< (b - _).toNat) != 0#64) = _
        rw [e]; exact testbit_eq _ _ (by omega)
      · rw [if_neg (by rw [h3]; exact c3), if_neg c3]
        have e : (b - 192).toNat = b.toNat - 192 := sub_toNat b 192 (by simp; omega)
        show (_ &&& (1#64 <<< (b - _).toNat) != 0#64) = _
        rw [e]; exact testbit_eq _ _ (by omega)

theorem setBitWith_bit (s : ByteSet) (b : UInt8) (f : BitVec 64 → UInt8 → BitVec 64)
    (g : Bool → Bool)
    (hf : ∀ x (i : UInt8), i.toNat < 64 → ∀ j, (f x i).getLsbD j =
        if j = i.toNat then g (x.getLsbD j) else x.getLsbD j)
    (n : Nat) (hn : n < 256) :
    (s.setBitWith b f).bit n = if n = b.toNat then g (s.bit n) else s.bit n := by
  obtain ⟨h1, h2, h3⟩ := quad_cases b
  have hb := b.toNat_lt
  unfold setBitWith
  by_cases c1 : b.toNat < 64
  · rw [if_pos (h1.2 c1)]
    unfold bit
    by_cases d1 : n < 64
    · simp only [d1, if_true]; exact hf _ _ c1 _
    · simp only [d1, if_false]; rw [if_neg (show ¬ n = b.toNat by omega)]
  · rw [if_neg (by rw [h1]; exact c1)]
    by_cases c2 : b.toNat < 128
    · rw [if_pos (h2.2 c2)]
      have e : (b - 64).toNat = b.toNat - 64 := sub_toNat b 64 (by simp; omega)
      unfold bit
      by_cases d1 : n < 64
      · simp only [d1, if_true]; rw [if_neg (show ¬ n = b.toNat by omega)]
      · by_cases d2 : n < 128
        · simp only [d1, d2, if_true, if_false]
          rw [hf _ _ (by omega), e]
          by_cases en : n = b.toNat
          · simp [en]
          · rw [if_neg en, if_neg (by omega)]
        · simp only [d1, d2, if_false]; rw [if_neg (show ¬ n = b.toNat by omega)]
    · rw [if_neg (by rw [h2]; exact c2)]
      by_cases c3 : b.toNat < 192
      · rw [if_pos (h3.2 c3)]
        have e : (b - 128).toNat = b.toNat - 128 := sub_toNat b 128 (by simp; omega)
        unfold bit
        by_cases d1 : n < 64
        · simp only [d1, if_true]; rw [if_neg (show ¬ n = b.toNat by omega)]
        · by_cases d2 : n < 128
          · simp only [d1, d2, if_true, if_false]; rw [if_neg (show ¬ n = b.toNat by omega)]
          · by_cases d3 : n < 192
            · simp only [d1, d2, d3, if_true, if_false]
              rw [hf _ _ (by omega), e]
              by_cases en : n = b.toNat
              · simp [en]
              · rw [if_neg en, if_neg (by omega)]
            · simp only [d1, d2, d3, if_false]; rw [if_neg (show ¬ n = b.toNat by omega)]
      · rw [if_neg (by rw [h3]; exact c3)]
        have e : (b - 192).toNat = b.toNat - 192 := sub_toNat b 192 (by simp; omega)
        unfold bit
        by_cases d1 : n < 64
        · simp only [d1, if_true]; rw [if_neg (show ¬ n = b.toNat by omega)]
        · by_cases d2 : n < 128
          · simp only [d1, d2, if_true, if_false]; rw [if_neg (show ¬ n = b.toNat by omega)]
          · by_cases d3 : n < 192
            · simp only [d1, d2, d3, if_true, if_false]; rw [if_neg (show ¬ n = b.toNat by omega)]
            · simp only [d1, d2, d3, if_false]
              rw [hf _ _ (by omega), e]
              by_cases en : n = b.toNat
              · simp [en]
              · rw [if_neg en, if_neg (by omega)]

theorem insert_bit (s : ByteSet) (b : UInt8) (n : Nat) (hn : n < 256) :
    (s.insert b).bit n = (decide (n = b.toNat) || s.bit n) := by
  unfold insert
  rw [setBitWith_bit s b _ (fun _ => true) _ n hn]
  · by_cases e : n = b.toNat <;> simp [e]
  · intro x i hi j
    simp only [BitVec.getLsbD_or, shl_getLsbD _ _ hi]
    by_cases e : j = i.toNat <;> simp [e]

theorem remove_bit (s : ByteSet) (b : UInt8) (n : Nat) (hn : n < 256) :
    (s.remove b).bit n = (!decide (n = b.toNat) && s.bit n) := by
  unfold remove
  rw [setBitWith_bit s b _ (fun _ => false) _ n hn]
  · by_cases e : n = b.toNat <;> simp [e]
  · intro x i hi j
    simp only [BitVec.getLsbD_and, BitVec.getLsbD_not, shl_getLsbD _ _ hi]
    by_cases e : j = i.toNat
    · simp [e]
    · by_cases hj : j < 64
      · simp [e, hj]
      · simp [e, hj, BitVec.getLsbD_of_ge x j (by omega)]

theorem ext_bit (s t : ByteSet) (h : ∀ n, n < 256 → s.bit n = t.bit n) : s = t := by
  rcases s with ⟨a0, a1, a2, a3⟩
  rcases t with ⟨b0, b1, b2, b3⟩
  congr 1 <;> apply BitVec.eq_of_getLsbD_eq <;> intro i hi
  · have := h i (by omega); simpa [bit, hi] using this
  · have := h (i + 64) (by omega)
    have l1 : ¬ (i + 64 < 64) := by omega
    have l2 : i + 64 < 128 := by omega
    simpa [bit, l1, l2] using this
  · have := h (i + 128) (by omega)
    have l1 : ¬ (i + 128 < 64) := by omega
    have l2 : ¬ (i + 128 < 128) := by omega
    have l3 : i + 128 < 192 := by omega
    simpa [bit, l1, l2, l3] using this
  · have := h (i + 192) (by omega)
    have l1 : ¬ (i + 192 < 64) := by omega
    have l2 : ¬ (i + 192 < 128) := by omega
    have l3 : ¬ (i + 192 < 192) := by omega
    simpa [bit, l1, l2, l3] using this

theorem ext_contains (s t : ByteSet) (h : ∀ b, s.contains b = t.contains b) : s = t := by
  apply ext_bit
  intro n hn
  have := h (UInt8.ofNat n)
  rw [contains_eq, contains_eq] at this
  have e : (UInt8.ofNat n).toNat = n := by
    simp only [UInt8.toNat_ofNat']; omega
  rwa [e] at this

theorem toNat_ofNat_lt (n : Nat) (hn : n < 256) : (UInt8.ofNat n).toNat = n := by
  simp only [UInt8.toNat_ofNat']; omega

theorem fromIter_foldl (l : List UInt8) (s : ByteSet) (b : UInt8) :
    (l.foldl insert s).contains b = (s.contains b || l.contains b) := by
  induction l generalizing s with
  | nil => simp
  | cons x xs ih =>
    rw [List.foldl_cons, ih]
    have hb := b.toNat_lt
    rw [contains_eq (s.insert x), insert_bit _ _ _ hb, ← contains_eq]
    rw [List.contains_cons]
    have : decide (b.toNat = x.toNat) = (b == x) := by
      by_cases e : b = x
      · subst e; simp
      · have : b.toNat ≠ x.toNat := fun h => e (UInt8.toNat_inj.1 h)
        simp [e, this]
    rw [this]
    cases s.contains b <;> cases (b == x) <;> simp

theorem mem_rangeInclusive (lo hi b : UInt8) :
    b ∈ rangeInclusive lo hi ↔ lo ≤ b ∧ b ≤ hi := by
  unfold rangeInclusive
  simp only [List.mem_map, List.mem_range'_1, UInt8.le_iff_toNat_le]
  have h1 := lo.toNat_lt
  have h2 := hi.toNat_lt
  have h3 := b.toNat_lt
  constructor
  · rintro ⟨n, hn, rfl⟩
    rw [toNat_ofNat_lt n (by omega)]
    omega
  · intro h
    exact ⟨b.toNat, by omega, by simp⟩

theorem foldl_mask (l : List Nat) (hl : ∀ i ∈ l, i < 64) (m : BitVec 64) (j : Nat) :
    (l.foldl (fun m i => m ||| (1#64 <<< i)) m).getLsbD j = (m.getLsbD j || l.contains j) := by
  induction l generalizing m with
  | nil => simp
  | cons x xs ih =>
    rw [List.foldl_cons, ih (fun i hi => hl i (by simp [hi]))]
    rw [BitVec.getLsbD_or, shl_getLsbD _ _ (hl x (by simp)), List.contains_cons]
    by_cases e : j = x
    · simp [e]
    · have : (j == x) = false := by simpa using e
      simp [e, this]

/-! ### words -/

theorem trailingZeros_spec (x : BitVec 64) :
    (trailingZeros x = 64 ∧ ∀ i, i < 64 → x.getLsbD i = false) ∨
    (trailingZeros x < 64 ∧ x.getLsbD (trailingZeros x) = true ∧
      ∀ j, j < trailingZeros x → x.getLsbD j = false) := by
  unfold trailingZeros
  cases h : (List.range 64).find? (fun i => x.getLsbD i) with
  | none =>
    left
    rw [List.find?_eq_none] at h
    refine ⟨rfl, fun i hi => ?_⟩
    simpa using h i (List.mem_range.2 hi)
  | some i =>
    right
    have := List.find?_range_eq_some.1 h
    simp only [List.mem_range, Bool.not_eq_true'] at this
    exact ⟨this.2.1, this.1, this.2.2⟩

theorem leadingZeros_spec (x : BitVec 64) :
    (leadingZeros x = 64 ∧ ∀ i, i < 64 → x.getLsbD i = false) ∨
    (leadingZeros x < 64 ∧ x.getLsbD (63 - leadingZeros x) = true ∧
      ∀ j, 63 - leadingZeros x < j → j < 64 → x.getLsbD j = false) := by
  unfold leadingZeros
  cases h : (List.range 64).find? (fun i => x.getLsbD (63 - i)) with
  | none =>
    left
    rw [List.find?_eq_none] at h
    refine ⟨rfl, fun i hi => ?_⟩
    have := h (63 - i) (List.mem_range.2 (by omega))
    have e : 63 - (63 - i) = i := by omega
    rw [e] at this
    simpa using this
  | some i =>
    right
    have := List.find?_range_eq_some.1 h
    simp only [List.mem_range, Bool.not_eq_true'] at this
    refine ⟨this.2.1, this.1, fun j hj1 hj2 => ?_⟩
    have hj1' : 63 - i < j := hj1
    have h3 := this.2.2 (63 - j) (by have := this.2.1; omega)
    have e : 63 - (63 - j) = j := by omega
    rwa [e] at h3

theorem minSetBit_spec (x : BitVec 64) :
    (minSetBit x = none ∧ ∀ i, i < 64 → x.getLsbD i = false) ∨
    (∃ i : Nat, i < 64 ∧ minSetBit x = some (UInt8.ofNat i) ∧ x.getLsbD i = true ∧
      ∀ j, j < i → x.getLsbD j = false) := by
  rcases trailingZeros_spec x with ⟨h1, h2⟩ | ⟨h1, h2, h3⟩
  · left
    refine ⟨?_, h2⟩
    unfold minSetBit
    rw [h1]; rfl
  · right
    refine ⟨trailingZeros x, h1, ?_, h2, h3⟩
    unfold minSetBit
    split
    · omega
    · rfl

theorem maxSetBit_spec (x : BitVec 64) :
    (maxSetBit x = none ∧ ∀ i, i < 64 → x.getLsbD i = false) ∨
    (∃ i : Nat, i < 64 ∧ maxSetBit x = some (UInt8.ofNat i) ∧ x.getLsbD i = true ∧
      ∀ j, i < j → j < 64 → x.getLsbD j = false) := by
  rcases leadingZeros_spec x with ⟨h1, h2⟩ | ⟨h1, h2, h3⟩
  · left
    refine ⟨?_, h2⟩
    unfold maxSetBit
    rw [h1]; rfl
  · right
    refine ⟨63 - leadingZeros x, by omega, ?_, h2, h3⟩
    unfold maxSetBit
    split
    · omega
    · rfl

theorem countOnes_eq (x : BitVec 64) (f : Nat → Bool) (off : Nat)
    (h : ∀ i, i < 64 → f (off + i) = x.getLsbD i) :
    ((List.range' off 64).filter f).length = countOnes x := by
  unfold countOnes
  have : List.range' off 64 = (List.range 64).map (fun i => off + i) := by
    rw [List.range_eq_range', List.map_add_range']; simp
  rw [this, List.filter_map, List.length_map]
  congr 1
  apply List.filter_congr
  intro i hi
  exact h i (List.mem_range.1 hi)

theorem len_eq_count (s : ByteSet) :
    s.len = ((List.range 256).filter (fun n => s.bit n)).length := by
  have e : List.range 256 = List.range' 0 64 ++ List.range' 64 64 ++ List.range' 128 64
      ++ List.range' 192 64 := by decide +kernel
  rw [e]
  simp only [List.filter_append, List.length_append]
  rw [countOnes_eq s.q0 _ 0, countOnes_eq s.q1 _ 64, countOnes_eq s.q2 _ 128,
    countOnes_eq s.q3 _ 192]
  · rfl
  · intro i hi
    have l1 : ¬ (192 + i < 64) := by omega
    have l2 : ¬ (192 + i < 128) := by omega
    have l3 : ¬ (192 + i < 192) := by omega
    simp [bit, l1, l2, l3]
  · intro i hi
    have l1 : ¬ (128 + i < 64) := by omega
    have l2 : ¬ (128 + i < 128) := by omega
    have l3 : (128 + i < 192) := by omega
    simp [bit, l1, l2, l3]
  · intro i hi
    have l1 : ¬ (64 + i < 64) := by omega
    have l2 : (64 + i < 128) := by omega
    simp [bit, l1, l2]
  · intro i hi
    have l1 : (0 + i < 64) := by omega
    simp [bit, hi]

end ByteSet
end Doodle
