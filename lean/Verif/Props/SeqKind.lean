import Verif.Model.SeqKind

/-! Property C27: both sequence representations behave as the list they denote. -/

namespace Doodle
namespace SeqKind
variable {α : Type}

/-- Specification: the list a sequence value denotes. -/
def denotes : SeqKind α → List α → Prop
  | .strict l, l' => l' = l
  | .dup n x, l' => l'.length = n ∧ ∀ y ∈ l', y = x

/-- every representation denotes exactly one list -/
theorem C27_denotes_unique (s : SeqKind α) (l : List α) : denotes s l ↔ l = s.iter := by
  cases s with
  | strict vs => rfl
  | dup n x =>
    unfold denotes iter
    rw [List.eq_replicate_iff]

theorem C27_len (s : SeqKind α) (l : List α) (h : denotes s l) : s.len = l.length := by
  rw [C27_denotes_unique] at h; subst h
  cases s <;> simp [len, iter]

theorem C27_isEmpty (s : SeqKind α) (l : List α) (h : denotes s l) : s.isEmpty = true ↔ l = [] := by
  rw [C27_denotes_unique] at h; subst h
  cases s with
  | strict vs => simp [isEmpty, iter]
  | dup n x => cases n <;> simp [isEmpty, iter, List.replicate_succ]

theorem C27_intoVec (s : SeqKind α) (l : List α) (h : denotes s l) : s.intoVec = l := by
  rw [C27_denotes_unique] at h; subst h
  cases s <;> rfl

theorem C27_get (s : SeqKind α) (l : List α) (h : denotes s l) (i : Nat) : s.get i = l[i]? := by
  rw [C27_denotes_unique] at h; subst h
  cases s with
  | strict vs => rfl
  | dup n x => simp [get, iter, List.getElem?_replicate]

theorem C27_index (s : SeqKind α) (l : List α) (h : denotes s l) (i : Nat) :
    (∀ x, s.index i = .ok x ↔ l[i]? = some x) ∧ (s.index i = .panic ↔ l.length ≤ i) := by
  unfold index
  rw [C27_get s l h]
  cases hi : l[i]? with
  | none => simp [Panicky.unwrap]; simpa using hi
  | some y =>
    have := (List.getElem?_eq_some_iff.1 hi).1
    simp [Panicky.unwrap]; omega

/-- A sub-sequence is defined exactly when the range lies inside, and then denotes that stretch. -/
theorem C27_subSeq (s : SeqKind α) (l : List α) (h : denotes s l) (start n : Nat) :
    (start + n ≤ l.length → ∃ t, s.subSeq start n = .ok t ∧ denotes t ((l.drop start).take n)) ∧
    (l.length < start + n → s.subSeq start n = .panic) := by
  rw [C27_denotes_unique] at h; subst h
  cases s with
  | strict vs =>
    simp only [iter, subSeq]
    constructor
    · intro hle
      rw [if_pos (by omega), List.length_drop, if_pos (by omega)]
      exact ⟨_, rfl, rfl⟩
    · intro hlt
      by_cases c : start ≤ vs.length
      · rw [if_pos c, List.length_drop, if_neg (by omega)]
      · rw [if_neg c]
  | dup m x =>
    simp only [iter, subSeq, List.length_replicate]
    constructor
    · intro hle
      rw [if_pos hle]
      refine ⟨_, rfl, ?_⟩
      rw [C27_denotes_unique]
      simp [iter, List.drop_replicate, List.take_replicate]
      omega
    · intro hlt
      rw [if_neg (by omega)]

theorem C27_append (s t : SeqKind α) (l m : List α) (hs : denotes s l) (ht : denotes t m) :
    denotes (s.append t) (l ++ m) := by
  unfold append
  by_cases c1 : s.isEmpty = true
  · rw [if_pos c1]
    rw [C27_isEmpty s l hs] at c1
    subst c1; simpa using ht
  · rw [if_neg c1]
    by_cases c2 : t.isEmpty = true
    · rw [if_pos c2]
      rw [C27_isEmpty t m ht] at c2
      subst c2; simpa using hs
    · rw [if_neg c2, C27_intoVec s l hs, C27_intoVec t m ht]
      rfl

/-- Equality of the Rust type is structural and so does *not* agree with equality of the denoted
lists: two elements spelled out differ from the same element duplicated twice. -/
theorem C27_eq_not_extensional (x : α) :
    SeqKind.strict [x, x] ≠ SeqKind.dup 2 x ∧
      ∀ l, denotes (SeqKind.strict [x, x]) l ↔ denotes (SeqKind.dup 2 x) l := by
  refine ⟨(fun h => nomatch h), fun l => ?_⟩
  rw [C27_denotes_unique, C27_denotes_unique]; rfl

example : (SeqKind.dup 5 'a').subSeq 1 3 = .ok (.dup 3 'a') := by rfl

end SeqKind

/-- The full claim for sub-ranges of integer ranges. -/
def SubRangeCorrect : Prop :=
  ∀ (a b start n : Nat), a ≤ b → start + n ≤ b - a → subRange (a, b) start n = .ok (a + start, a + start + n)

/-- Refuted: taking the whole of a range (or any stretch reaching its end) trips the assertion,
which is off by one. -/
theorem C27_subRange_refuted : ¬ SubRangeCorrect := by
  intro h
  have := h 0 3 0 3 (by decide) (by decide)
  revert this; decide

/-- When the assertion does not fire, the result is the right stretch, and it fires exactly when the
stretch reaches or passes the end. -/
theorem C27_subRange_partial (a b start n : Nat) :
    (start + n < b - a → subRange (a, b) start n = .ok (a + start, a + start + n)) ∧
    (b - a ≤ start + n → subRange (a, b) start n = .panic) := by
  unfold subRange
  constructor
  · intro h; simp [h]
  · intro h; simp; omega

example : subRange (10, 20) 2 3 = .ok (12, 15) := by decide

end Doodle
