import Verif.Model.Search

/-! Property C28: keyed search is correct.

Keys are the numbers compared by `compare_as_key` (all four unsigned kinds compare by value). -/

namespace Doodle

/-- comparison of a numeric query with a numeric key, as `compare_as_key` does for operands of one kind -/
def natCmp (q : Nat) (k : Nat) : Panicky Ordering := .ok (compare q k)

theorem natCmp_lt {q k : Nat} (h : natCmp q k = .ok .lt) : q < k := by
  unfold natCmp at h; simpa [Nat.compare_eq_lt] using h
theorem natCmp_eq {q k : Nat} (h : natCmp q k = .ok .eq) : q = k := by
  unfold natCmp at h; simpa using h
theorem natCmp_gt {q k : Nat} (h : natCmp q k = .ok .gt) : k < q := by
  unfold natCmp at h; simpa [Nat.compare_eq_gt] using h

/-- the outcome is an index of the query key, or "absent" and there is none -/
def SearchCorrect (key : Nat → Nat) (len q : Nat) (r : Panicky (Option Nat)) : Prop :=
  (∃ i, r = .ok (some i) ∧ i < len ∧ key i = q) ∨ (r = .ok none ∧ ∀ i, i < len → key i ≠ q)

theorem searchLoop_correct (key : Nat → Nat) (len q : Nat)
    (hsort : ∀ i j, i ≤ j → j < len → key i ≤ key j) (h0 : key 0 < q) :
    ∀ fuel lo hi, hi < len → lo ≤ hi + 1 → hi + 1 - lo < fuel →
      (∀ i, i < lo → key i < q) → (∀ i, hi < i → i < len → q < key i) →
      SearchCorrect key len q (searchLoop (natCmp q) (fun i => .ok (key i)) fuel lo hi) := by
  intro fuel
  induction fuel with
  | zero => intro lo hi _ _ h; omega
  | succ fuel ih =>
    intro lo hi hhi hlohi hf hl hh
    unfold searchLoop
    by_cases c : lo ≤ hi
    · rw [if_pos c]
      simp only []
      have hm : (lo + hi) / 2 < len := by omega
      cases ho : natCmp q (key ((lo + hi) / 2)) with
      | panic => simp [natCmp] at ho
      | ok o =>
        cases o with
        | lt =>
          simp only []
          have hlt := natCmp_lt ho
          have hne : (lo + hi) / 2 ≠ 0 := by
            intro e; rw [e] at hlt; omega
          rw [if_neg hne]
          apply ih
          · omega
          · omega
          · omega
          · exact hl
          · intro i hi1 hi2
            exact Nat.lt_of_lt_of_le hlt (hsort _ _ (by omega) hi2)
        | eq =>
          exact Or.inl ⟨_, rfl, hm, (natCmp_eq ho).symm⟩
        | gt =>
          simp only []
          have hgt := natCmp_gt ho
          apply ih
          · exact hhi
          · omega
          · omega
          · intro i hi1
            exact Nat.lt_of_le_of_lt (hsort _ _ (by omega) hm) hgt
          · exact hh
    · rw [if_neg c]
      refine Or.inr ⟨rfl, fun i hi => ?_⟩
      by_cases e : i < lo
      · have := hl i e; omega
      · have := hh i (by omega) hi; omega

/-- Sorted search on a sequence whose keys are in non-decreasing order: finds a matching element
whenever there is one, reports absence otherwise, and never panics (no underflow, no out-of-range). -/
theorem C28_sorted (key : Nat → Nat) (len q : Nat)
    (hsort : ∀ i j, i ≤ j → j < len → key i ≤ key j) :
    SearchCorrect key len q
      (findIndexByKeySorted (natCmp q) (fun i => if i < len then .ok (key i) else .panic) len) := by
  -- the guarded key function agrees with the plain one at all indices the search may touch
  have hloop : ∀ fuel lo hi, hi < len →
      searchLoop (natCmp q) (fun i => if i < len then .ok (key i) else .panic) fuel lo hi =
      searchLoop (natCmp q) (fun i => .ok (key i)) fuel lo hi := by
    intro fuel
    induction fuel with
    | zero => intros; rfl
    | succ fuel ih =>
      intro lo hi hhi
      unfold searchLoop
      by_cases c : lo ≤ hi
      · simp only [c, if_true, show (lo + hi) / 2 < len by omega]
        split <;> try rfl
        · split
          · rfl
          · exact ih _ _ (by omega)
        · exact ih _ _ hhi
      · simp only [c, if_false]
  unfold findIndexByKeySorted
  by_cases c0 : len = 0
  · rw [if_pos c0]; exact Or.inr ⟨rfl, fun i hi => by omega⟩
  · rw [if_neg c0]
    simp only [show 0 < len by omega, if_true]
    cases ho : natCmp q (key 0) with
    | panic => simp [natCmp] at ho
    | ok o =>
      cases o with
      | lt =>
        refine Or.inr ⟨rfl, fun i hi => ?_⟩
        have := natCmp_lt ho; have := hsort 0 i (by omega) hi; omega
      | eq => exact Or.inl ⟨0, rfl, by omega, (natCmp_eq ho).symm⟩
      | gt =>
        simp only []
        have h0 := natCmp_gt ho
        by_cases c1 : len ≤ 1
        · rw [if_pos c1]
          refine Or.inr ⟨rfl, fun i hi => ?_⟩
          have : i = 0 := by omega
          subst this; omega
        · rw [if_neg c1]
          simp only [show len - 1 < len by omega, if_true]
          cases ho2 : natCmp q (key (len - 1)) with
          | panic => simp [natCmp] at ho2
          | ok o2 =>
            cases o2 with
            | gt =>
              refine Or.inr ⟨rfl, fun i hi => ?_⟩
              have := natCmp_gt ho2; have := hsort i (len - 1) (by omega) (by omega); omega
            | eq => exact Or.inl ⟨_, rfl, by omega, (natCmp_eq ho2).symm⟩
            | lt =>
              simp only []
              have h2 := natCmp_lt ho2
              by_cases c2 : len ≤ 2
              · rw [if_pos c2]
                refine Or.inr ⟨rfl, fun i hi => ?_⟩
                have : i = 0 ∨ i = len - 1 := by omega
                rcases this with rfl | rfl <;> omega
              · rw [if_neg c2, hloop _ _ _ (by omega)]
                apply searchLoop_correct key len q hsort h0
                · omega
                · omega
                · omega
                · intro i hi; omega
                · intro i h1 h2'; omega

/-- Non-vacuity: a sorted table with duplicates; the query in the middle is found. -/
example : findIndexByKeySorted (natCmp 7)
    (fun i => match [1, 3, 7, 7, 9][i]? with | some k => .ok k | none => .panic) 5 = .ok (some 2) := by
  decide +kernel

/-- Unsorted search returns the first index whose key equals the query, or reports absence. -/
theorem C28_unsorted (keys : List Nat) (q : Nat) :
    findIndexByKeyUnsorted (fun k => .ok (q == k)) (fun k => Panicky.ok k) keys 0 =
      .ok (keys.findIdx? (fun k => q == k)) := by
  have gen : ∀ (l : List Nat) (n : Nat),
      findIndexByKeyUnsorted (fun k => .ok (q == k)) (fun k => Panicky.ok k) l n =
        .ok ((l.findIdx? (fun k => q == k)).map (· + n)) := by
    intro l
    induction l with
    | nil => intro n; rfl
    | cons x xs ih =>
      intro n
      unfold findIndexByKeyUnsorted
      simp only [List.findIdx?_cons]
      by_cases c : q == x
      · simp [c]
      · simp only [c, ih]
        cases xs.findIdx? (fun k => q == k) with
        | none => rfl
        | some i => simp; omega
  rw [gen]; cases keys.findIdx? (fun k => q == k) <;> rfl

/-- the same in words: the returned index carries the query key and no earlier one does -/
theorem C28_unsorted_first (keys : List Nat) (q : Nat) :
    (∃ i, findIndexByKeyUnsorted (fun k => .ok (q == k)) (fun k => Panicky.ok k) keys 0 = .ok (some i) ∧
        keys[i]? = some q ∧ ∀ j, j < i → keys[j]? ≠ some q) ∨
    (findIndexByKeyUnsorted (fun k => .ok (q == k)) (fun k => Panicky.ok k) keys 0 = .ok none ∧ q ∉ keys) := by
  rw [C28_unsorted]
  cases h : keys.findIdx? (fun k => q == k) with
  | none =>
    right
    refine ⟨rfl, fun hm => ?_⟩
    rw [List.findIdx?_eq_none_iff] at h
    have := h q hm
    simp at this
  | some i =>
    left
    rw [List.findIdx?_eq_some_iff_getElem] at h
    obtain ⟨hi, h1, h2⟩ := h
    refine ⟨i, rfl, ?_, fun j hj hc => ?_⟩
    · rw [List.getElem?_eq_getElem hi]
      have : q = keys[i] := by simpa using h1
      rw [← this]
    · have := h2 j hj
      rw [List.getElem?_eq_getElem (by omega)] at hc
      simp only [Option.some.injEq] at hc
      exact this (by simp [hc])

example : findIndexByKeyUnsorted (fun k => .ok ((7:Nat) == k)) (fun k => Panicky.ok k) [9, 7, 1, 7] 0 = .ok (some 1) := by
  decide

end Doodle
