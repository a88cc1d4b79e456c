import Verif.Model.Read

/-! Property C06: reading never leaves the window. -/

namespace Doodle
namespace ReadCtxt

/-- the position is inside the window -/
def Inside (c : ReadCtxt) : Prop := c.offset ≤ c.input.length

theorem C06_new (l : List UInt8) : Inside (new l) ∧ (new l).input = l ∧ (new l).offset = 0 :=
  ⟨Nat.zero_le _, rfl, rfl⟩

theorem C06_remaining (c : ReadCtxt) (h : Inside c) : c.remaining = .ok (c.input.drop c.offset) := by
  unfold remaining; unfold Inside at h; rw [if_pos h]

/-- A byte read succeeds iff the position is strictly before the end; it returns that byte and
advances by one in the same window. -/
theorem C06_readByte (c : ReadCtxt) :
    (∀ b c', c.readByte = some (b, c') ↔
      c.input[c.offset]? = some b ∧ c' = ⟨c.input, c.offset + 1⟩) ∧
    (c.readByte = none ↔ c.input.length ≤ c.offset) := by
  constructor
  · intro b c'
    unfold readByte
    cases h : c.input[c.offset]? with
    | none => simp
    | some x => simp [eq_comm]
  · unfold readByte
    cases h : c.input[c.offset]? with
    | none => simpa using h
    | some x =>
      have := (List.getElem?_eq_some_iff.1 h).1
      simp; omega

/-- Multi-byte reads succeed iff that many bytes are left. -/
theorem C06_readBe_none (sz : Nat) (c : ReadCtxt) :
    c.readBe sz = none ↔ c.input.length < c.offset + sz := by
  unfold readBe; split <;> simp <;> omega

/-- Specification: the big-endian value of a byte string. -/
def bigEndian : List UInt8 → Nat
  | [] => 0
  | b :: bs => b.toNat * 256 ^ bs.length + bigEndian bs

theorem fromBeBytes_eq (l : List UInt8) : fromBeBytes l = bigEndian l := by
  have gen : ∀ (l : List UInt8) (a : Nat),
      l.foldl (fun acc b => acc * 256 + b.toNat) a = a * 256 ^ l.length + bigEndian l := by
    intro l
    induction l with
    | nil => intro a; simp [bigEndian]
    | cons x xs ih =>
      intro a
      rw [List.foldl_cons, ih, List.length_cons, bigEndian, Nat.pow_succ, Nat.add_mul]
      rw [Nat.mul_assoc, Nat.mul_comm 256]
      omega
  unfold fromBeBytes
  rw [gen]; simp

/-- A successful read of `sz` bytes (`sz = 2, 4, 8` in the API) returns the big-endian value of the
next `sz` bytes and advances by `sz`. -/
theorem C06_readBe (sz : Nat) (c c' : ReadCtxt) (n : Nat) (h : c.readBe sz = some (n, c')) :
    ∃ bs : List UInt8, bs.length = sz ∧ (∀ i, i < sz → c.input[c.offset + i]? = bs[i]?) ∧
      n = bigEndian bs ∧ c' = ⟨c.input, c.offset + sz⟩ := by
  unfold readBe at h
  split at h
  · rename_i hle
    cases h
    refine ⟨(c.input.drop c.offset).take sz, by simp; omega, fun i hi => ?_, fromBeBytes_eq _, rfl⟩
    rw [List.getElem?_take, if_pos hi, List.getElem?_drop]
  · cases h

example : (ReadCtxt.new [1, 2, 3]).readBe 2 = some (0x0102, ⟨[1, 2, 3], 2⟩) := by decide

/-- Splitting: fails exactly when it would pass the end (or overflow the word); the first part is
the window cut at the split point, the second part starts there. -/
theorem C06_splitAt (c : ReadCtxt) (n : Nat) (hw : c.offset + n < 2 ^ 64) :
    (c.offset + n ≤ c.input.length →
      c.splitAt n = .ok (some (⟨c.input.take (c.offset + n), c.offset⟩, ⟨c.input, c.offset + n⟩))) ∧
    (c.input.length < c.offset + n → c.splitAt n = .ok none) := by
  have hw' : c.offset + n < usizeCard := hw
  unfold splitAt addUsize
  rw [if_pos hw']
  constructor
  · intro h; simp [h]
  · intro h; simp [show ¬ (c.offset + n ≤ c.input.length) by omega]

/-- The full claim "split fails cleanly exactly when it would pass the end" is false for lengths near
`2^64`: the addition overflows (a panic in a debug build). -/
theorem C06_splitAt_overflow_refuted :
    ¬ ∀ (c : ReadCtxt) (n : Nat), n < 2 ^ 64 → Inside c → c.input.length < c.offset + n →
      c.splitAt n = .ok none := by
  intro h
  have := h ⟨[0], 1⟩ (2 ^ 64 - 1) (by decide) (Nat.le_refl 1) (by decide)
  revert this; decide +kernel

theorem C06_seekTo (c : ReadCtxt) (n : Nat) :
    (n ≤ c.input.length → c.seekTo n = some ⟨c.input, n⟩) ∧
    (c.input.length < n → c.seekTo n = none) := by
  unfold seekTo
  constructor
  · intro h; rw [if_pos h]
  · intro h; rw [if_neg (by omega)]

/-- The operations a client may apply. -/
inductive Op where
  | byte
  | be (sz : Nat)
  | seek (n : Nat)
  | splitFst (n : Nat)
  | splitSnd (n : Nat)
  | skip

/-- one operation; a failed operation leaves the context as it was -/
def step (c : ReadCtxt) : Op → ReadCtxt
  | .byte => match c.readByte with | some (_, c') => c' | none => c
  | .be sz => match c.readBe sz with | some (_, c') => c' | none => c
  | .seek n => (c.seekTo n).getD c
  | .splitFst n => match c.splitAt n with | .ok (some (a, _)) => a | _ => c
  | .splitSnd n => match c.splitAt n with | .ok (some (_, b)) => b | _ => c
  | .skip => c.skipRemainder

theorem step_spec (c : ReadCtxt) (op : Op) (h : Inside c) :
    Inside (c.step op) ∧ (c.step op).input <+: c.input := by
  unfold Inside at *
  cases op with
  | byte =>
    unfold step
    cases hb : c.readByte with
    | none => exact ⟨h, List.prefix_refl _⟩
    | some p =>
      obtain ⟨b, c'⟩ := p
      obtain ⟨h1, rfl⟩ := ((C06_readByte c).1 b c').1 hb
      have := (List.getElem?_eq_some_iff.1 h1).1
      exact ⟨this, List.prefix_refl _⟩
  | be sz =>
    simp only [step, readBe]
    split
    · rename_i h1
      split at h1
      · cases h1; rename_i h2; exact ⟨h2, List.prefix_refl _⟩
      · cases h1
    · exact ⟨h, List.prefix_refl _⟩
  | seek n =>
    simp only [step, seekTo]
    split
    · rename_i h1; exact ⟨h1, List.prefix_refl _⟩
    · exact ⟨h, List.prefix_refl _⟩
  | splitFst n =>
    simp only [step, splitAt, addUsize]
    split
    · rename_i a b h1
      split at h1
      · cases h1
      · rename_i e he
        split at he
        · cases he
          split at h1
          · cases h1
            rename_i h3
            refine ⟨?_, List.take_prefix _ _⟩
            show c.offset ≤ (c.input.take (c.offset + n)).length
            rw [List.length_take]; omega
          · cases h1
        · cases he
    · exact ⟨h, List.prefix_refl _⟩
  | splitSnd n =>
    simp only [step, splitAt, addUsize]
    split
    · rename_i a b h1
      split at h1
      · cases h1
      · rename_i e he
        split at he
        · cases he
          split at h1
          · cases h1
            rename_i h3
            exact ⟨h3, List.prefix_refl _⟩
          · cases h1
        · cases he
    · exact ⟨h, List.prefix_refl _⟩
  | skip => exact ⟨Nat.le_refl _, List.prefix_refl _⟩

/-- For every history of operations: the position stays inside the window and the window stays a
prefix of the original buffer. -/
theorem C06_history (l : List UInt8) (ops : List Op) :
    Inside (ops.foldl step (new l)) ∧ (ops.foldl step (new l)).input <+: l := by
  have gen : ∀ (c : ReadCtxt), Inside c → c.input <+: l →
      Inside (ops.foldl step c) ∧ (ops.foldl step c).input <+: l := by
    induction ops with
    | nil => intro c h1 h2; exact ⟨h1, h2⟩
    | cons op ops ih =>
      intro c h1 h2
      obtain ⟨g1, g2⟩ := step_spec c op h1
      exact ih _ g1 (g2.trans h2)
  exact gen _ (C06_new l).1 (List.prefix_refl _)

/-- The first part of a split can never see beyond the split point, whatever is done with it. -/
theorem C06_split_confined (c a b : ReadCtxt) (n : Nat) (h : Inside c)
    (hs : c.splitAt n = .ok (some (a, b))) (ops : List Op) :
    (ops.foldl step a).input.length ≤ c.offset + n ∧
      (ops.foldl step a).offset ≤ c.offset + n := by
  have ha : a = ⟨c.input.take (c.offset + n), c.offset⟩ ∧ c.offset + n ≤ c.input.length := by
    unfold splitAt addUsize at hs
    split at hs
    · cases hs
    · rename_i e he
      split at he
      · cases he
        split at hs
        · cases hs; rename_i hh; exact ⟨rfl, hh⟩
        · cases hs
      · cases he
  have hin : Inside a := by
    rw [ha.1]; unfold Inside; simp only [List.length_take]; unfold Inside at h; omega
  have hpre : a.input.length ≤ c.offset + n := by rw [ha.1]; simp only [List.length_take]; omega
  have gen : ∀ (d : ReadCtxt), Inside d → d.input.length ≤ c.offset + n →
      (ops.foldl step d).input.length ≤ c.offset + n ∧ (ops.foldl step d).offset ≤ c.offset + n := by
    induction ops with
    | nil => intro d h1 h2; exact ⟨h2, Nat.le_trans h1 h2⟩
    | cons op ops ih =>
      intro d h1 h2
      obtain ⟨g1, g2⟩ := step_spec d op h1
      exact ih _ g1 (Nat.le_trans g2.length_le h2)
  exact gen a hin hpre

/-- Non-vacuity: a history that reads, splits, and fails a read at the split point. -/
example : ([Op.byte, .splitFst 1, .byte, .byte].foldl step (new [7, 8, 9])) = ⟨[7, 8], 2⟩ := by decide

end ReadCtxt
end Doodle
