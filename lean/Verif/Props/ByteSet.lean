import Verif.Lemmas.ByteSet

/-!
Property theorems C01, C02, C03 (and the display corollaries of C02).

Specification used: a `ByteSet` stands for the set of bytes on which `contains` answers `true`.
-/

namespace Doodle
namespace ByteSet

/-! ## C01 – ByteSet is a set of bytes -/

theorem C01_contains_empty (b : UInt8) : empty.contains b = false := by
  rw [contains_eq]; unfold bit empty fromBits
  simp only [BitVec.ofNat_eq_ofNat, BitVec.getLsbD_zero, ite_self]

theorem C01_contains_full (b : UInt8) : full.contains b = true := by
  have := b.toNat_lt
  rw [contains_eq]
  unfold bit full fromBits
  simp only [BitVec.getLsbD_allOnes]
  repeat' split
  all_goals (rw [decide_eq_true_iff]; omega)

theorem C01_contains_singleton (x b : UInt8) : (singleton x).contains b = true ↔ b = x := by
  have hx := x.toNat_lt
  have hb := b.toNat_lt
  rw [contains_eq, ← UInt8.toNat_inj]
  have key : ∀ (off : UInt8) (j : Nat),
      (bitToQuad x off).getLsbD j = decide (x.toNat = off.toNat + j ∧ j < 64) := by
    intro off j
    unfold bitToQuad
    by_cases h : off > x
    · rw [if_pos h]
      have : x.toNat < off.toNat := UInt8.lt_iff_toNat_lt.1 h
      simp; omega
    · rw [if_neg h]
      have : off.toNat ≤ x.toNat := by
        have h' : ¬ (x.toNat < off.toNat) := fun c => h (UInt8.lt_iff_toNat_lt.2 c)
        omega
      by_cases h2 : x.toNat - off.toNat < 64
      · simp only [h2, if_true, shl_getLsbD _ _ h2]
        apply decide_eq_decide.2
        omega
      · simp only [h2, if_false, BitVec.getLsbD_zero]
        symm; rw [decide_eq_false_iff_not]; omega
  have e1 : (0x40 : UInt8).toNat = 64 := rfl
  have e2 : (0x80 : UInt8).toNat = 128 := rfl
  have e3 : (0xc0 : UInt8).toNat = 192 := rfl
  have e0 : (0 : UInt8).toNat = 0 := rfl
  unfold bit singleton
  simp only [key, e0, e1, e2, e3]
  repeat' split
  all_goals (rw [decide_eq_true_iff]; omega)

theorem C01_contains_insert (s : ByteSet) (x b : UInt8) :
    (s.insert x).contains b = true ↔ b = x ∨ s.contains b = true := by
  have hb := b.toNat_lt
  rw [contains_eq, contains_eq, insert_bit _ _ _ hb, ← UInt8.toNat_inj]
  simp

theorem C01_contains_remove (s : ByteSet) (x b : UInt8) :
    (s.remove x).contains b = true ↔ b ≠ x ∧ s.contains b = true := by
  have hb := b.toNat_lt
  rw [contains_eq, contains_eq, remove_bit _ _ _ hb, ne_eq, ← UInt8.toNat_inj]
  simp

theorem C01_contains_union (s t : ByteSet) (b : UInt8) :
    (s.union t).contains b = true ↔ s.contains b = true ∨ t.contains b = true := by
  rw [contains_eq, contains_eq, contains_eq]
  unfold bit union fromBits
  simp only [BitVec.getLsbD_or]
  repeat' split
  all_goals simp

theorem C01_contains_intersection (s t : ByteSet) (b : UInt8) :
    (s.intersection t).contains b = true ↔ s.contains b = true ∧ t.contains b = true := by
  rw [contains_eq, contains_eq, contains_eq]
  unfold bit intersection fromBits
  simp only [BitVec.getLsbD_and]
  repeat' split
  all_goals simp

theorem C01_contains_difference (s t : ByteSet) (b : UInt8) :
    (s.difference t).contains b = true ↔ s.contains b = true ∧ ¬ t.contains b = true := by
  have hb := b.toNat_lt
  rw [contains_eq, contains_eq, contains_eq]
  unfold bit difference zipBitsWith fromBits
  simp only [BitVec.getLsbD_and, BitVec.getLsbD_not]
  repeat' split
  all_goals (simp; try omega)

theorem C01_contains_complement (s : ByteSet) (b : UInt8) :
    s.complement.contains b = true ↔ ¬ s.contains b = true := by
  have hb := b.toNat_lt
  rw [contains_eq, contains_eq]
  unfold bit complement mapBits fromBits
  simp only [BitVec.getLsbD_not]
  repeat' split
  all_goals (simp; try omega)

theorem C01_contains_fromIter (l : List UInt8) (b : UInt8) :
    (fromIter l).contains b = true ↔ b ∈ l := by
  unfold fromIter
  rw [fromIter_foldl, C01_contains_empty]
  simp

theorem C01_contains_fromRangeInclusive (lo hi b : UInt8) :
    (fromRangeInclusive lo hi).contains b = true ↔ lo ≤ b ∧ b ≤ hi := by
  have h1 := lo.toNat_lt
  have h2 := hi.toNat_lt
  have h3 := b.toNat_lt
  unfold fromRangeInclusive
  by_cases c1 : lo = hi
  · rw [if_pos c1, C01_contains_fromIter]
    subst c1
    simp only [List.mem_singleton, UInt8.le_iff_toNat_le, ← UInt8.toNat_inj]
    omega
  rw [if_neg c1]
  by_cases c2 : lo > hi
  · rw [if_pos c2, C01_contains_empty]
    have : hi.toNat < lo.toNat := UInt8.lt_iff_toNat_lt.1 c2
    simp only [UInt8.le_iff_toNat_le]
    constructor
    · intro h; cases h
    · intro h; omega
  rw [if_neg c2]
  by_cases c3 : lo >>> 6 = hi >>> 6
  · simp only [c3, if_true]
    -- all of lo..=hi lie in one quadrant
    have q : ∀ x : UInt8, (x >>> 6).toNat = x.toNat / 64 := by
      intro x; rw [UInt8.toNat_shiftRight]; simp [Nat.shiftRight_eq_div_pow]
    have qeq : lo.toNat / 64 = hi.toNat / 64 := by
      rw [← q, ← q, c3]
    have hle : lo.toNat ≤ hi.toNat := by
      have h' : ¬ (hi.toNat < lo.toNat) := fun c => c2 (UInt8.lt_iff_toNat_lt.2 c)
      omega
    have m63 : ∀ x : UInt8, (x &&& 63).toNat = x.toNat % 64 := by
      intro x; rw [UInt8.toNat_and]; exact Nat.and_two_pow_sub_one_eq_mod _ 6
    have mask : ∀ j, ((rangeInclusive lo hi).foldl
        (fun m i => m ||| (1#64 <<< (i &&& 63).toNat)) 0#64).getLsbD j = true ↔
          ∃ x : UInt8, lo ≤ x ∧ x ≤ hi ∧ x.toNat % 64 = j := by
      intro j
      have := foldl_mask ((rangeInclusive lo hi).map (fun i => (i &&& 63).toNat))
        (by
          intro i hi'
          obtain ⟨x, _, rfl⟩ := List.mem_map.1 hi'
          rw [m63]; omega) 0#64 j
      rw [List.foldl_map] at this
      rw [this, BitVec.getLsbD_zero, Bool.false_or, List.contains_iff_mem, List.mem_map]
      constructor
      · rintro ⟨x, hx, rfl⟩
        rw [mem_rangeInclusive] at hx
        exact ⟨x, hx.1, hx.2, (m63 x).symm⟩
      · rintro ⟨x, hx1, hx2, rfl⟩
        exact ⟨x, (mem_rangeInclusive _ _ _).2 ⟨hx1, hx2⟩, m63 x⟩
    -- membership of b in the range in terms of the mask bit and the quadrant
    have fin : ∀ j, j < 64 → b.toNat = 64 * (hi.toNat / 64) + j →
        ((∃ x : UInt8, lo ≤ x ∧ x ≤ hi ∧ x.toNat % 64 = j) ↔ lo ≤ b ∧ b ≤ hi) := by
      intro j hj hbj
      constructor
      · rintro ⟨x, hx1, hx2, hx3⟩
        have : x = b := by
          rw [← UInt8.toNat_inj]
          rw [UInt8.le_iff_toNat_le] at hx1 hx2
          omega
        subst this; exact ⟨hx1, hx2⟩
      · rintro ⟨hx1, hx2⟩
        exact ⟨b, hx1, hx2, by omega⟩
    have out : b.toNat / 64 ≠ hi.toNat / 64 → ¬ (lo ≤ b ∧ b ≤ hi) := by
      intro hne ⟨hx1, hx2⟩
      rw [UInt8.le_iff_toNat_le] at hx1 hx2
      omega
    have dz : ∀ k : Nat, k < 4 → (hi >>> 6 = UInt8.ofNat k ↔ hi.toNat / 64 = k) := by
      intro k hk
      rw [← UInt8.toNat_inj, q, toNat_ofNat_lt k (by omega)]
    have d0 : hi >>> 6 = 0 ↔ hi.toNat / 64 = 0 := dz 0 (by omega)
    have d1 : hi >>> 6 = 1 ↔ hi.toNat / 64 = 1 := dz 1 (by omega)
    have d2 : hi >>> 6 = 2 ↔ hi.toNat / 64 = 2 := dz 2 (by omega)
    rw [contains_eq]
    simp only [d0, d1, d2]
    repeat' split
    all_goals
      (unfold bit
       simp only []
       repeat' split
       all_goals first
         | (rw [mask]; exact fin _ (by omega) (by omega))
         | (rw [iff_false_intro (out (by omega))]; simp))
  · simp only [c3, if_false]
    rw [C01_contains_fromIter, mem_rangeInclusive]

theorem C01_contains_fromRange (start stop b : UInt8) :
    (fromRange start stop).contains b = true ↔ start ≤ b ∧ b < stop := by
  have h1 := start.toNat_lt
  have h2 := stop.toNat_lt
  have h3 := b.toNat_lt
  unfold fromRange
  by_cases c : stop ≤ start
  · rw [if_pos c, C01_contains_empty]
    rw [UInt8.le_iff_toNat_le] at c
    rw [UInt8.le_iff_toNat_le, UInt8.lt_iff_toNat_lt]
    constructor
    · intro h; cases h
    · intro h; omega
  · rw [if_neg c, C01_contains_fromRangeInclusive]
    rw [UInt8.le_iff_toNat_le] at c
    have e : (stop - 1).toNat = stop.toNat - 1 := sub_toNat stop 1 (by simp; omega)
    rw [UInt8.le_iff_toNat_le, UInt8.le_iff_toNat_le, UInt8.lt_iff_toNat_lt, e]
    omega

/-- Equality of sets is equality of members. -/
theorem C01_ext (s t : ByteSet) : s = t ↔ ∀ b, s.contains b = t.contains b :=
  ⟨fun h b => by rw [h], ext_contains s t⟩

theorem C01_isEmpty (s : ByteSet) : s.isEmpty = true ↔ ∀ b, ¬ s.contains b = true := by
  unfold isEmpty
  rw [beq_iff_eq, C01_ext]
  simp [C01_contains_empty]

theorem C01_isFull (s : ByteSet) : s.isFull = true ↔ ∀ b, s.contains b = true := by
  unfold isFull
  rw [beq_iff_eq, C01_ext]
  simp [C01_contains_full]

theorem C01_isDisjoint (s t : ByteSet) :
    s.isDisjoint t = true ↔ ¬ ∃ b, s.contains b = true ∧ t.contains b = true := by
  unfold isDisjoint
  rw [C01_isEmpty]
  simp only [C01_contains_intersection, not_exists]

/-- `len` is the number of members (`allBytes` lists each byte once, see `C03_allBytes`). -/
theorem C01_len (s : ByteSet) : s.len = (allBytes.filter (fun b => s.contains b)).length := by
  rw [len_eq_count]
  unfold allBytes
  rw [List.filter_map, List.length_map]
  congr 1
  apply List.filter_congr
  intro n hn
  simp only [Function.comp]
  rw [contains_eq, toNat_ofNat_lt n (List.mem_range.1 hn)]

/-- Non-vacuity: a set crossing a quadrant boundary built by the range constructor. -/
example : (fromRangeInclusive 60 70).contains 64 = true ∧ (fromRangeInclusive 60 70).contains 71 = false := by
  decide +kernel

/-! ## C03 – iteration is sorted enumeration -/

theorem C03_allBytes (b : UInt8) : b ∈ allBytes := by
  unfold allBytes
  rw [List.mem_map]
  exact ⟨b.toNat, List.mem_range.2 b.toNat_lt, by simp⟩

theorem C03_iter_mem (s : ByteSet) (b : UInt8) : b ∈ s.iter ↔ s.contains b = true := by
  unfold iter
  rw [List.mem_filter]
  simp [C03_allBytes]

/-- strictly increasing, hence without duplicates -/
theorem C03_iter_sorted (s : ByteSet) : s.iter.Pairwise (· < ·) := by
  unfold iter
  apply List.Pairwise.filter
  unfold allBytes
  rw [List.pairwise_map]
  have : (List.range 256).Pairwise (fun a b => a < b ∧ b < 256) := by
    have h := List.pairwise_lt_range (n := 256)
    exact h.imp_of_mem (fun {a b} _ hb hab => ⟨hab, List.mem_range.1 hb⟩)
  refine this.imp (fun {a b} h => ?_)
  rw [UInt8.lt_iff_toNat_lt, toNat_ofNat_lt a (by omega), toNat_ofNat_lt b (by omega)]
  exact h.1

theorem C03_iter_length (s : ByteSet) : s.iter.length = s.len := (C01_len s).symm

/-- collecting the iterator gives back the same set -/
theorem C03_roundtrip (s : ByteSet) : fromIter s.iter = s := by
  apply ext_contains
  intro b
  rw [Bool.eq_iff_iff, C01_contains_fromIter, C03_iter_mem]

/-- The serialised form determines the set: re-reading the listed bytes and complementing when the
tag says "excludes" gives back the set. -/
theorem C03_serialize_roundtrip (s : ByteSet) :
    (let (excl, data) := s.serialize
     if excl then (fromIter data).complement else fromIter data) = s := by
  unfold serialize
  split
  · rename_i excl data h
    split at h
    · cases h; simp [C03_roundtrip]
    · cases h
      simp only [if_true, C03_roundtrip]
      apply ext_contains
      intro b
      rw [Bool.eq_iff_iff, C01_contains_complement, C01_contains_complement]
      simp

example : (fromIter [200, 7, 7, 65]).iter = [7, 65, 200] := by decide +kernel

/-! ## C02 – extremes -/

theorem C02_minElem_some (s : ByteSet) (b : UInt8) :
    s.minElem = some b ↔ s.contains b = true ∧ ∀ c, s.contains c = true → b ≤ c := by
  have key : (∃ b, s.minElem = some b ∧ s.contains b = true ∧ ∀ c, s.contains c = true → b ≤ c) ∨
      (s.minElem = none ∧ ∀ c, s.contains c = false) := by
    have add : ∀ (k : UInt8) (i : Nat), k.toNat ≤ 192 → i < 64 →
        (k + UInt8.ofNat i).toNat = k.toNat + i := by
      intro k i hk hi
      rw [UInt8.toNat_add, toNat_ofNat_lt i (by omega)]; omega
    unfold minElem
    rcases minSetBit_spec s.q0 with ⟨e, h0⟩ | ⟨i, hi, e, h1, h2⟩
    · rw [e]
      simp only []
      rcases minSetBit_spec s.q1 with ⟨e, h0'⟩ | ⟨i, hi, e, h1, h2⟩
      · rw [e]
        simp only []
        rcases minSetBit_spec s.q2 with ⟨e, h0''⟩ | ⟨i, hi, e, h1, h2⟩
        · rw [e]
          simp only []
          rcases minSetBit_spec s.q3 with ⟨e, h0'''⟩ | ⟨i, hi, e, h1, h2⟩
          · rw [e]
            right
            refine ⟨rfl, fun c => ?_⟩
            have hc := c.toNat_lt
            rw [contains_eq]; unfold bit
            repeat' split
            · exact h0 _ (by omega)
            · exact h0' _ (by omega)
            · exact h0'' _ (by omega)
            · exact h0''' _ (by omega)
          · rw [e]
            left
            refine ⟨_, rfl, ?_, fun c hc => ?_⟩
            · rw [contains_eq, add _ _ (by decide) hi]; unfold bit
              have : (0xc0 : UInt8).toNat = 192 := rfl
              rw [this]
              rw [if_neg (by omega), if_neg (by omega), if_neg (by omega)]
              simpa using h1
            · rw [UInt8.le_iff_toNat_le, add _ _ (by decide) hi]
              have e0 : (0xc0 : UInt8).toNat = 192 := rfl
              rw [e0]
              have hcl := c.toNat_lt
              rw [contains_eq] at hc; unfold bit at hc
              repeat' split at hc
              · rw [h0 _ (by omega)] at hc; cases hc
              · rw [h0' _ (by omega)] at hc; cases hc
              · rw [h0'' _ (by omega)] at hc; cases hc
              · by_cases g : c.toNat - 192 < i
                · rw [h2 _ g] at hc; cases hc
                · omega
        · rw [e]
          left
          refine ⟨_, rfl, ?_, fun c hc => ?_⟩
          · rw [contains_eq, add _ _ (by decide) hi]; unfold bit
            have : (0x80 : UInt8).toNat = 128 := rfl
            rw [this]
            rw [if_neg (by omega), if_neg (by omega), if_pos (by omega)]
            simpa using h1
          · rw [UInt8.le_iff_toNat_le, add _ _ (by decide) hi]
            have e0 : (0x80 : UInt8).toNat = 128 := rfl
            rw [e0]
            have hcl := c.toNat_lt
            rw [contains_eq] at hc; unfold bit at hc
            repeat' split at hc
            · rw [h0 _ (by omega)] at hc; cases hc
            · rw [h0' _ (by omega)] at hc; cases hc
            · by_cases g : c.toNat - 128 < i
              · rw [h2 _ g] at hc; cases hc
              · omega
            · omega
      · rw [e]
        left
        refine ⟨_, rfl, ?_, fun c hc => ?_⟩
        · rw [contains_eq, add _ _ (by decide) hi]; unfold bit
          have : (0x40 : UInt8).toNat = 64 := rfl
          rw [this]
          rw [if_neg (by omega), if_pos (by omega)]
          simpa using h1
        · rw [UInt8.le_iff_toNat_le, add _ _ (by decide) hi]
          have e0 : (0x40 : UInt8).toNat = 64 := rfl
          rw [e0]
          have hcl := c.toNat_lt
          rw [contains_eq] at hc; unfold bit at hc
          repeat' split at hc
          · rw [h0 _ (by omega)] at hc; cases hc
          · by_cases g : c.toNat - 64 < i
            · rw [h2 _ g] at hc; cases hc
            · omega
          · omega
          · omega
    · rw [e]
      left
      refine ⟨_, rfl, ?_, fun c hc => ?_⟩
      · rw [contains_eq, toNat_ofNat_lt i (by omega)]; unfold bit
        rw [if_pos hi]; exact h1
      · rw [UInt8.le_iff_toNat_le, toNat_ofNat_lt i (by omega)]
        have hcl := c.toNat_lt
        rw [contains_eq] at hc; unfold bit at hc
        repeat' split at hc
        · by_cases g : c.toNat < i
          · rw [h2 _ g] at hc; cases hc
          · omega
        · omega
        · omega
        · omega
  constructor
  · intro h
    rcases key with ⟨b', h1, h2, h3⟩ | ⟨h1, _⟩
    · rw [h1] at h; cases h; exact ⟨h2, h3⟩
    · rw [h1] at h; cases h
  · rintro ⟨h1, h2⟩
    rcases key with ⟨b', g1, g2, g3⟩ | ⟨_, g2⟩
    · have e1 := h2 _ g2
      have e2 := g3 _ h1
      have : b = b' := by
        rw [← UInt8.toNat_inj]
        rw [UInt8.le_iff_toNat_le] at e1 e2
        omega
      rw [this]; exact g1
    · rw [g2] at h1; cases h1

theorem C02_minElem_none (s : ByteSet) : s.minElem = none ↔ ∀ c, ¬ s.contains c = true := by
  constructor
  · intro h c hc
    -- the least member exists
    have : ∃ m, s.contains m = true ∧ ∀ c, s.contains c = true → m ≤ c := by
      have hne : s.iter ≠ [] := by
        intro e; have := (C03_iter_mem s c).2 hc; rw [e] at this; cases this
      have hsorted := C03_iter_sorted s
      cases hl : s.iter with
      | nil => exact absurd hl hne
      | cons m rest =>
        rw [hl, List.pairwise_cons] at hsorted
        refine ⟨m, (C03_iter_mem s m).1 (by rw [hl]; simp), fun c hc => ?_⟩
        have hcm := (C03_iter_mem s c).2 hc
        rw [hl, List.mem_cons] at hcm
        rcases hcm with rfl | hcm
        · exact UInt8.le_refl _
        · have := hsorted.1 c hcm
          rw [UInt8.lt_iff_toNat_lt] at this
          rw [UInt8.le_iff_toNat_le]; omega
    obtain ⟨m, hm⟩ := this
    rw [(C02_minElem_some s m).2 hm] at h
    cases h
  · intro h
    cases hm : s.minElem with
    | none => rfl
    | some b => exact absurd ((C02_minElem_some s b).1 hm).1 (h b)

/-- The full claim for `max_elem`. -/
def MaxElemCorrect : Prop :=
  ∀ (s : ByteSet) (b : UInt8),
    s.maxElem = some b ↔ s.contains b = true ∧ ∀ c, s.contains c = true → c ≤ b

/-- The code violates it: `max_elem` of the empty set is `Some(191)`, and of `{5}` it is `Some(191)`. -/
theorem C02_maxElem_refuted : ¬ MaxElemCorrect := by
  intro h
  have h1 : (empty : ByteSet).maxElem = some 191 := by decide +kernel
  have := ((h empty 191).1 h1).1
  rw [C01_contains_empty] at this
  cases this

theorem C02_maxElem_singleton_wrong : (singleton 5).maxElem = some 191 := by decide +kernel

/-- What does hold: if the set has a member in the top quadrant, `max_elem` is the greatest member. -/
theorem C02_maxElem_partial (s : ByteSet) (w : UInt8) (hw : s.contains w = true) (hq : 192 ≤ w)
    (b : UInt8) :
    s.maxElem = some b ↔ s.contains b = true ∧ ∀ c, s.contains c = true → c ≤ b := by
  have hwl := w.toNat_lt
  have hq' : 192 ≤ w.toNat := by rw [UInt8.le_iff_toNat_le] at hq; simpa using hq
  have key : ∃ b, s.maxElem = some b ∧ s.contains b = true ∧ ∀ c, s.contains c = true → c ≤ b := by
    unfold maxElem
    rcases maxSetBit_spec s.q3 with ⟨e, h0⟩ | ⟨i, hi, e, h1, h2⟩
    · exfalso
      rw [contains_eq] at hw; unfold bit at hw
      rw [if_neg (by omega), if_neg (by omega), if_neg (by omega)] at hw
      rw [h0 _ (by omega)] at hw; cases hw
    · rw [e]
      have ad : ((0xc0 : UInt8) + UInt8.ofNat i).toNat = 192 + i := by
        rw [UInt8.toNat_add, toNat_ofNat_lt i (by omega)]
        have e0 : (0xc0 : UInt8).toNat = 192 := rfl
        rw [e0]; omega
      refine ⟨_, rfl, ?_, fun c hc => ?_⟩
      · rw [contains_eq, ad]; unfold bit
        rw [if_neg (by omega), if_neg (by omega), if_neg (by omega)]
        simpa using h1
      · rw [UInt8.le_iff_toNat_le, ad]
        have hcl := c.toNat_lt
        rw [contains_eq] at hc; unfold bit at hc
        repeat' split at hc
        · omega
        · omega
        · omega
        · by_cases g : i < c.toNat - 192
          · rw [h2 _ g (by omega)] at hc; cases hc
          · omega
  obtain ⟨b', g1, g2, g3⟩ := key
  constructor
  · intro h; rw [g1] at h; cases h; exact ⟨g2, g3⟩
  · rintro ⟨h1, h2⟩
    have e1 := h2 _ g2
    have e2 := g3 _ h1
    have : b = b' := by
      rw [← UInt8.toNat_inj]
      rw [UInt8.le_iff_toNat_le] at e1 e2
      omega
    rw [this]; exact g1

example : (fromIter [3, 250]).contains 250 = true ∧ (192 : UInt8) ≤ 250 := by decide +kernel

/-- Consequences of the `max_elem` defect for the display code: rendering the set of UTF-8
continuation bytes `0x80..=0xBF` underflows in `span`, and `bounds` of `0..=0xBF` hits `unreachable!`. -/
theorem C02_span_panics : (fromRangeInclusive 0x80 0xBF).span = .panic := by decide +kernel

theorem C02_bounds_panics : (fromRangeInclusive 0 0xBF).bounds = .panic := by decide +kernel

private theorem extendDown_spec (s : ByteSet) : ∀ n, n ≤ 255 →
    extendDown s n ≤ n ∧ (∀ c, extendDown s n ≤ c → c < n → s.contains (UInt8.ofNat c) = true) ∧
    (extendDown s n = 0 ∨ s.contains (UInt8.ofNat (extendDown s n - 1)) = false) := by
  intro n
  induction n with
  | zero => intro _; exact ⟨Nat.le_refl _, fun c _ h => absurd h (by omega), Or.inl rfl⟩
  | succ n ih =>
    intro hn
    unfold extendDown
    by_cases hc : s.contains (UInt8.ofNat n) = true
    · rw [if_pos hc]
      obtain ⟨h1, h2, h3⟩ := ih (by omega)
      refine ⟨by omega, fun c a b => ?_, h3⟩
      by_cases e : c = n
      · rw [e]; exact hc
      · exact h2 c a (by omega)
    · rw [if_neg hc]
      exact ⟨Nat.le_refl _, fun c a b => absurd a (by omega), Or.inr (by simpa using hc)⟩

private theorem extendUp_spec (s : ByteSet) : ∀ k, k ≤ 255 →
    255 - k ≤ extendUp s k ∧ extendUp s k ≤ 255 ∧
    (∀ c, 255 - k < c → c ≤ extendUp s k → s.contains (UInt8.ofNat c) = true) ∧
    (extendUp s k = 255 ∨ s.contains (UInt8.ofNat (extendUp s k + 1)) = false) := by
  intro k
  induction k with
  | zero => intro _; exact ⟨Nat.le_refl _, Nat.le_refl _, fun c a b => absurd b (by unfold extendUp; omega), Or.inl rfl⟩
  | succ k ih =>
    intro hn
    unfold extendUp
    by_cases hc : s.contains (UInt8.ofNat (255 - k)) = true
    · rw [if_pos hc]
      obtain ⟨h1, h2, h3, h4⟩ := ih (by omega)
      refine ⟨by omega, h2, fun c a b => ?_, h4⟩
      by_cases e : c = 255 - k
      · rw [e]; exact hc
      · exact h3 c (by omega) b
    · rw [if_neg hc]
      refine ⟨Nat.le_refl _, by omega, fun c a b => absurd a (by omega), Or.inr ?_⟩
      rw [show 255 - (k + 1) + 1 = 255 - k by omega]; simpa using hc

/-- The range reported around a member is the maximal run of members containing it. -/
theorem C02_findEnclosingRange (s : ByteSet) (b lo hi : UInt8) (h : s.findEnclosingRange b = some (lo, hi)) :
    lo ≤ b ∧ b ≤ hi ∧ (∀ c, lo ≤ c → c ≤ hi → s.contains c = true) ∧
    (∀ c : UInt8, c.toNat + 1 = lo.toNat → s.contains c = false) ∧
    (∀ c : UInt8, c.toNat = hi.toNat + 1 → s.contains c = false) := by
  unfold findEnclosingRange at h
  split at h
  · next hb =>
    obtain ⟨d1, d2, d3⟩ := extendDown_spec s b.toNat (by have := b.toNat_lt; omega)
    obtain ⟨u1, u2, u3, u4⟩ := extendUp_spec s (255 - b.toNat) (by omega)
    have hbl := b.toNat_lt
    cases h
    have e1 : (UInt8.ofNat (extendDown s b.toNat)).toNat = extendDown s b.toNat := toNat_ofNat_lt _ (by omega)
    have e2 : (UInt8.ofNat (extendUp s (255 - b.toNat))).toNat = extendUp s (255 - b.toNat) := toNat_ofNat_lt _ (by omega)
    have ofToNat : ∀ c : UInt8, UInt8.ofNat c.toNat = c := fun c => by simp
    refine ⟨?_, ?_, ?_, ?_, ?_⟩
    · rw [UInt8.le_iff_toNat_le, e1]; exact d1
    · rw [UInt8.le_iff_toNat_le, e2]; omega
    · intro c h1 h2
      rw [UInt8.le_iff_toNat_le, e1] at h1
      rw [UInt8.le_iff_toNat_le, e2] at h2
      rcases Nat.lt_trichotomy c.toNat b.toNat with g | g | g
      · have := d2 c.toNat h1 g; rwa [ofToNat] at this
      · rw [UInt8.toNat_inj] at g; rw [g]; exact hb
      · have := u3 c.toNat (by omega) h2; rwa [ofToNat] at this
    · intro c hc
      rw [e1] at hc
      rcases d3 with g | g
      · omega
      · rw [← hc] at g; rw [Nat.add_sub_cancel, ofToNat] at g; exact g
    · intro c hc
      rw [e2] at hc
      have := c.toNat_lt
      rcases u4 with g | g
      · omega
      · rw [← hc, ofToNat] at g; exact g
  · cases h

/-- A range is reported exactly for the members. -/
theorem C02_findEnclosingRange_none (s : ByteSet) (b : UInt8) :
    s.findEnclosingRange b = none ↔ s.contains b = false := by
  unfold findEnclosingRange
  by_cases h : s.contains b = true
  · rw [if_pos h, h]; simp
  · rw [if_neg h]; simpa using h

example : (fromRangeInclusive 0x41 0x5a).findEnclosingRange 0x50 = some (0x41, 0x5a) := by decide +kernel

/-- The range test holds exactly if every byte of the range is a member. -/
theorem C02_containsRange (s : ByteSet) (lo hi : UInt8) :
    s.containsRange lo hi = true ↔ ∀ c, lo ≤ c → c ≤ hi → s.contains c = true := by
  unfold containsRange
  simp only [beq_iff_eq]
  rw [C01_len, C01_len]
  have e : allBytes.filter (fun b => (s.intersection (fromRangeInclusive lo hi)).contains b)
      = (allBytes.filter (fun b => (fromRangeInclusive lo hi).contains b)).filter (fun b => s.contains b) := by
    rw [List.filter_filter]
    apply List.filter_congr
    intro b _
    rw [Bool.eq_iff_iff, C01_contains_intersection]
    simp
  rw [e, List.length_filter_eq_length_iff]
  simp only [List.mem_filter, C01_contains_fromRangeInclusive]
  exact ⟨fun h c h1 h2 => h c ⟨C03_allBytes c, h1, h2⟩, fun h c hc => h c hc.2.1 hc.2.2⟩

example : (fromRangeInclusive 0x41 0x5a).containsRange 0x42 0x50 = true := by decide +kernel

end ByteSet
end Doodle
