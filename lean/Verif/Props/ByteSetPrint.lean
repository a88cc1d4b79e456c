import Verif.Props.ByteSet
import Verif.Spec.ByteSetPrint

/-!
C63: what is printed for a byte set stands for that set.
-/

namespace Doodle
namespace ByteSet

theorem every_byte {P : UInt8 → Prop} (h : ∀ n, n < 256 → P (UInt8.ofNat n)) (b : UInt8) : P b := by
  have := h b.toNat b.toNat_lt
  rwa [show UInt8.ofNat b.toNat = b by simp] at this

theorem exists_cons {α : Type} {p : α → Prop} {a : α} {l : List α} : (∃ x ∈ a :: l, p x) ↔ p a ∨ ∃ x ∈ l, p x := by
  simp [List.mem_cons, or_and_right, exists_or]

/-! ## Names -/

theorem token_means {s : ByteSet} {t : String} (h : s.asToken = some t) (b : UInt8) : Named t b ↔ s.contains b = true := by
  unfold asToken at h
  split at h
  · next hf => cases h; simp only [Named, true_iff]; exact (C01_isFull s).1 hf b
  split at h
  · next hf =>
    cases h; subst hf; simp only [Named]; revert b
    exact every_byte (by decide +kernel)
  split at h
  · next hf =>
    cases h; subst hf; simp only [Named]; revert b
    exact every_byte (by decide +kernel)
  split at h
  · next hf =>
    cases h; subst hf; simp only [Named]; revert b
    exact every_byte (by decide +kernel)
  split at h
  · next hf =>
    cases h; subst hf; simp only [Named]; revert b
    exact every_byte (by decide +kernel)
  split at h
  · next hf =>
    cases h; subst hf; simp only [Named]; revert b
    exact every_byte (by decide +kernel)
  split at h
  · next hf =>
    cases h; subst hf; simp only [Named]; revert b
    exact every_byte (by decide +kernel)
  split at h
  · next hf =>
    cases h; subst hf; simp only [Named]; revert b
    exact every_byte (by decide +kernel)
  · cases h

/-! ## Listings -/

theorem len_zero {s : ByteSet} (h : s.len = 0) (b : UInt8) : s.contains b = false := by
  rw [← C03_iter_length, List.length_eq_zero_iff] at h
  cases hb : s.contains b with
  | false => rfl
  | true => exact absurd ((C03_iter_mem s b).2 hb) (by rw [h]; simp)

theorem member_of_len {s : ByteSet} (h : s.len ≠ 0) : ∃ b, s.contains b = true := by
  rw [← C03_iter_length] at h
  cases hi : s.iter with
  | nil => rw [hi] at h; exact absurd rfl h
  | cons b l => exact ⟨b, (C03_iter_mem s b).1 (by rw [hi]; simp)⟩

theorem min_of_len {s : ByteSet} (h : s.len ≠ 0) : ∃ b, s.minElem = some b ∧ s.contains b = true := by
  cases hm : s.minElem with
  | none =>
    obtain ⟨b, hb⟩ := member_of_len h
    exact absurd hb ((C02_minElem_none s).1 hm b)
  | some b => exact ⟨b, rfl, ((C02_minElem_some s b).1 hm).1⟩

theorem len_one {s : ByteSet} (h : s.len = 1) {x : UInt8} (hx : s.contains x = true) (b : UInt8) :
    s.contains b = true ↔ b = x := by
  refine ⟨fun hb => ?_, fun hb => hb ▸ hx⟩
  rw [← C03_iter_length, List.length_eq_one_iff] at h
  obtain ⟨y, hy⟩ := h
  have h1 := (C03_iter_mem s b).2 hb
  have h2 := (C03_iter_mem s x).2 hx
  rw [hy] at h1 h2
  rw [List.mem_singleton.1 h1, List.mem_singleton.1 h2]

theorem filter_not_length {α : Type} (p : α → Bool) : ∀ l : List α, (l.filter fun a => !p a).length + (l.filter p).length = l.length
  | [] => rfl
  | a :: l => by
    have := filter_not_length p l
    cases h : p a <;> simp [h] <;> omega

theorem len_complement (s : ByteSet) : s.complement.len + s.len = 256 := by
  rw [C01_len, C01_len]
  have h := filter_not_length (fun b => s.contains b) allBytes
  have e : allBytes.filter (fun b => s.complement.contains b) = allBytes.filter (fun b => !s.contains b) := by
    apply List.filter_congr
    intro b _
    have := C01_contains_complement s b
    cases h1 : s.contains b <;> cases h2 : s.complement.contains b <;> simp_all
  rw [e]
  have : allBytes.length = 256 := by decide +kernel
  omega

theorem contains_complement (s : ByteSet) (b : UInt8) : s.complement.contains b = true ↔ ¬ s.contains b = true := by
  have := C01_contains_complement s b
  cases h1 : s.contains b <;> cases h2 : s.complement.contains b <;> simp_all

/-- Listings are right, and there is one for every set. -/
theorem raw_means (s : ByteSet) : ∃ p, s.rawPiece = .ok p ∧ ∀ b, p.Means b ↔ s.contains b = true := by
  have hc := len_complement s
  unfold rawPiece
  simp only []
  split
  · next h => exact ⟨_, rfl, fun b => by simp only [Piece.Means, len_zero h b]; simp⟩
  split
  · next h =>
    obtain ⟨x, hx, hx'⟩ := min_of_len (s := s) (by omega)
    rw [hx]
    exact ⟨_, rfl, fun b => by simp only [Piece.Means]; exact (len_one h hx' b).symm⟩
  split
  · exact ⟨_, rfl, fun b => by simp only [Piece.Means]; exact C03_iter_mem s b⟩
  split
  · refine ⟨_, rfl, fun b => ?_⟩
    simp only [Piece.Means, C03_iter_mem, contains_complement]
    simp
  split
  · next h =>
    obtain ⟨x, hx, hx'⟩ := min_of_len (s := s.complement) (by omega)
    rw [hx]
    refine ⟨_, rfl, fun b => ?_⟩
    simp only [Piece.Means]
    have := len_one (s := s.complement) (by omega) hx' b
    rw [contains_complement] at this
    constructor
    · intro hb
      exact Classical.byContradiction fun hn => hb (this.1 hn)
    · intro hb hn
      exact this.2 hn hb
  split
  · next h =>
    refine ⟨_, rfl, fun b => ?_⟩
    simp only [Piece.Means, Named, true_iff]
    have := len_zero (s := s.complement) (by omega) b
    exact Classical.byContradiction fun hn => by rw [(contains_complement s b).2 hn] at this; cases this
  · omega

/-! ## Ranges -/

theorem len_le {s t : ByteSet} (h : ∀ b, s.contains b = true → t.contains b = true) : s.len ≤ t.len := by
  rw [C01_len, C01_len]
  have e : allBytes.filter (fun b => s.contains b) = (allBytes.filter (fun b => t.contains b)).filter (fun b => s.contains b) := by
    rw [List.filter_filter]
    apply List.filter_congr
    intro b _
    have := h b
    cases h1 : s.contains b <;> simp_all
  rw [e]
  exact List.length_filter_le _ _

theorem len_eq {s t : ByteSet} (h : ∀ b, s.contains b = true → t.contains b = true) (hl : s.len = t.len) : s = t := by
  rw [C01_len, C01_len] at hl
  have e : allBytes.filter (fun b => s.contains b) = (allBytes.filter (fun b => t.contains b)).filter (fun b => s.contains b) := by
    rw [List.filter_filter]
    apply List.filter_congr
    intro b _
    have := h b
    cases h1 : s.contains b <;> simp_all
  rw [e, List.length_filter_eq_length_iff] at hl
  refine (C01_ext s t).2 fun b => ?_
  cases ht : t.contains b with
  | false =>
    cases hs : s.contains b with
    | false => rfl
    | true => rw [h b hs] at ht; cases ht
  | true => exact hl b (List.mem_filter.2 ⟨C03_allBytes b, ht⟩)

theorem count_range : ∀ (n lo hi : Nat), lo ≤ hi → hi < n →
    ((List.range n).filter fun i => decide (lo ≤ i) && decide (i ≤ hi)).length = hi - lo + 1
  | 0, lo, hi, h, h' => by omega
  | n + 1, lo, hi, h, h' => by
    rw [List.range_succ, List.filter_append, List.length_append]
    by_cases hn : hi < n
    · rw [count_range n lo hi h hn]
      have : ¬ n ≤ hi := by omega
      simp [this]
    · have hn' : hi = n := by omega
      subst hn'
      have e : ((List.range hi).filter fun i => decide (lo ≤ i) && decide (i ≤ hi)).length = hi - lo := by
        by_cases hl : lo = hi
        · subst hl
          rw [List.filter_eq_nil_iff.2]
          · simp
          · intro i hi; simp at hi ⊢; omega
        · have h3 := count_range hi lo (hi - 1) (by omega) (by omega)
          rw [show hi - 1 - lo + 1 = hi - lo by omega] at h3
          rw [← h3]
          congr 1
          apply List.filter_congr
          intro i hi
          simp at hi
          simp only [Bool.and_eq_decide, decide_eq_decide]
          simp
          omega
      rw [e]
      simp [h]
  
theorem len_range {lo hi : UInt8} (h : lo ≤ hi) : (fromRangeInclusive lo hi).len = hi.toNat - lo.toNat + 1 := by
  have h' := UInt8.le_iff_toNat_le.1 h
  have hh := hi.toNat_lt
  rw [C01_len, ← count_range 256 lo.toNat hi.toNat h' hh]
  unfold allBytes
  rw [List.filter_map, List.length_map]
  congr 1
  apply List.filter_congr
  intro i hi'
  simp at hi'
  rw [Bool.eq_iff_iff, Function.comp_apply, C01_contains_fromRangeInclusive, UInt8.le_iff_toNat_le, UInt8.le_iff_toNat_le,
    toNat_ofNat_lt i hi']
  simp

/-- A byte of the top quarter is in the set, or 191 is not. -/
def Sound (s : ByteSet) : Prop := (∃ w : UInt8, 192 ≤ w.toNat ∧ s.contains w = true) ∨ s.contains 191 = false

theorem max_191 {s : ByteSet} (h : ∀ w : UInt8, s.contains w = true → w.toNat < 192) (h' : s.contains 191 = false) :
    s.maxElem = some 191 := by
  unfold maxElem
  rcases maxSetBit_spec s.q3 with ⟨e, _⟩ | ⟨i, hi, e, h1, _⟩
  · rw [e]
    have hb : s.q2.getLsbD 63 = false := by
      rw [contains_eq, show (191 : UInt8).toNat = 191 from rfl] at h'
      unfold bit at h'
      simpa using h'
    rcases maxSetBit_spec (~~~ s.q2) with ⟨_, h0⟩ | ⟨i, hi, e, h1, h2⟩
    · have := h0 63 (by omega)
      rw [BitVec.getLsbD_not, hb] at this
      simp at this
    · simp only [e]
      have : i = 63 := by
        refine Classical.byContradiction fun hn => ?_
        have := h2 63 (by omega) (by omega)
        rw [BitVec.getLsbD_not, hb] at this
        simp at this
      subst this
      rfl
  · exfalso
    have hl : (UInt8.ofNat (192 + i)).toNat = 192 + i := toNat_ofNat_lt _ (by omega)
    have := h (UInt8.ofNat (192 + i)) (by
      rw [contains_eq, hl]
      unfold bit
      rw [if_neg (by omega), if_neg (by omega), if_neg (by omega), show 192 + i - 192 = i by omega]
      exact h1)
    omega

/-- What the largest element is taken to be. -/
theorem max_sound {s : ByteSet} (hs : s.Sound) {hi : UInt8} (h : s.maxElem = some hi) :
    (∀ b, s.contains b = true → b ≤ hi) ∧ (s.contains hi = true ∨ hi = 191 ∧ s.contains 191 = false) := by
  by_cases hw : ∃ w : UInt8, 192 ≤ w.toNat ∧ s.contains w = true
  · obtain ⟨w, h1, h2⟩ := hw
    have := (C02_maxElem_partial s w h2 (UInt8.le_iff_toNat_le.2 h1) hi).1 h
    exact ⟨this.2, .inl this.1⟩
  · have h' := hs.resolve_left hw
    have hl : ∀ w : UInt8, s.contains w = true → w.toNat < 192 := fun w h => by
      have : ¬ 192 ≤ w.toNat := fun hl => hw ⟨w, hl, h⟩
      omega
    rw [max_191 hl h'] at h
    cases h
    refine ⟨fun b hb => UInt8.le_iff_toNat_le.2 ?_, .inr ⟨rfl, h'⟩⟩
    have := hl b hb
    have e : (191 : UInt8).toNat = 191 := rfl
    omega

theorem contiguous_total (oc : Bool) (s : ByteSet) (h : oc = false ∨ s.Sound) : ∃ c, s.contiguousWith oc = .ok c := by
  have : ∃ n, s.spanWith oc = .ok n := by
    unfold spanWith
    split
    · next lo hi h1 h2 =>
      split
      · exact ⟨_, rfl⟩
      · next hle =>
        rcases h with rfl | h
        · exact ⟨_, rfl⟩
        · exact absurd (UInt8.le_iff_toNat_le.1 ((max_sound h h2).1 lo ((C02_minElem_some s lo).1 h1).1)) hle
    · exact ⟨_, rfl⟩
  obtain ⟨n, hn⟩ := this
  exact ⟨_, by unfold contiguousWith; rw [hn]; rfl⟩

theorem contiguous_parts {oc : Bool} {s : ByteSet} (h : s.contiguousWith oc = .ok true) (h0 : s.len ≠ 0) :
    ∃ lo hi, s.minElem = some lo ∧ s.maxElem = some hi ∧ (lo.toNat ≤ hi.toNat → s.len = hi.toNat - lo.toNat + 1) := by
  obtain ⟨n, h1, h2⟩ := Panicky.bind_eq_ok.1 h
  have hn : n = s.len := by simpa using h2
  unfold spanWith at h1
  split at h1
  · next lo hi e1 e2 =>
    refine ⟨lo, hi, e1, e2, fun hle => ?_⟩
    rw [if_pos hle] at h1
    cases h1
    exact hn.symm
  · cases h1
    exact absurd hn.symm h0

/-- Sets that are taken for a range are ranges. -/
theorem contiguous_range {oc : Bool} {s : ByteSet} (hs : s.Sound) (h : s.contiguousWith oc = .ok true) (h0 : s.len ≠ 0) :
    ∃ lo hi, s.minElem = some lo ∧ s.maxElem = some hi ∧ s.IsRange lo hi := by
  obtain ⟨lo, hi, h1, h2, h3⟩ := contiguous_parts h h0
  obtain ⟨m1, m2⟩ := max_sound hs h2
  obtain ⟨n1, n2⟩ := (C02_minElem_some s lo).1 h1
  have hle := UInt8.le_iff_toNat_le.1 (m1 lo n1)
  have hl := h3 hle
  rcases m2 with m2 | ⟨rfl, m2⟩
  · refine ⟨lo, hi, h1, h2, fun b => ?_⟩
    have : s = fromRangeInclusive lo hi := len_eq (fun b hb => (C01_contains_fromRangeInclusive lo hi b).2 ⟨n2 b hb, m1 b hb⟩)
      (by rw [len_range (m1 lo n1), hl])
    conv => lhs; rw [this]
    exact C01_contains_fromRangeInclusive lo hi b
  · exfalso
    have hne : ∀ b, s.contains b = true → b ≤ 190 := fun b hb => UInt8.le_iff_toNat_le.2 (by
      have h4 := UInt8.le_iff_toNat_le.1 (m1 b hb)
      have e : (191 : UInt8).toNat = 191 := rfl
      have e' : (190 : UInt8).toNat = 190 := rfl
      have : b.toNat ≠ 191 := fun h5 => by
        have : b = 191 := by rw [← UInt8.toNat_inj]; exact h5
        rw [this, m2] at hb
        cases hb
      omega)
    have h5 := len_le (s := s) (t := fromRangeInclusive lo 190) fun b hb =>
      (C01_contains_fromRangeInclusive lo 190 b).2 ⟨n2 b hb, hne b hb⟩
    rw [len_range (hne lo n1)] at h5
    have e : (191 : UInt8).toNat = 191 := rfl
    have e' : (190 : UInt8).toNat = 190 := rfl
    have := UInt8.le_iff_toNat_le.1 (hne lo n1)
    omega

theorem asRange_cases {oc : Bool} {s : ByteSet} (hc : s.contiguousWith oc = .ok true) :
    (∃ p, s.rawPiece = .ok p ∧ s.asRange oc = .ok (some p)) ∨
      s.len ≠ 0 ∧ ∃ lo hi, s.minElem = some lo ∧ s.maxElem = some hi ∧ s.asRange oc = .ok (some (.range lo hi)) := by
  unfold asRange
  rw [hc]
  by_cases hl : s.len = 0 ∨ s.len = 1 ∨ s.len = 255 ∨ s.len = 256
  · obtain ⟨p, p1, _⟩ := raw_means s
    exact .inl ⟨p, p1, by simp [bind, Panicky.bind, hl, p1]⟩
  · obtain ⟨lo, hi, h1, h2, _⟩ := contiguous_parts hc (by omega)
    have hb : s.bounds = .ok (some (lo, hi)) := by unfold bounds; rw [h1, h2]
    exact .inr ⟨by omega, lo, hi, h1, h2, by simp [bind, Panicky.bind, hl, hb]⟩

theorem asRange_total {oc : Bool} {s : ByteSet} (hc : s.contiguousWith oc = .ok true) : ∃ p, s.asRange oc = .ok (some p) := by
  rcases asRange_cases hc with ⟨p, _, h⟩ | ⟨_, lo, hi, _, _, h⟩ <;> exact ⟨_, h⟩

theorem range_contiguous {oc : Bool} {s : ByteSet} (hs : ∃ w : UInt8, 192 ≤ w.toNat ∧ s.contains w = true) {lo hi : UInt8}
    (h : s.IsRange lo hi) (hle : lo ≤ hi) : s.contiguousWith oc = .ok true := by
  have h1 : s.minElem = some lo := (C02_minElem_some s lo).2 ⟨(h lo).2 ⟨UInt8.le_refl _, hle⟩, fun b hb => ((h b).1 hb).1⟩
  obtain ⟨w, w1, w2⟩ := hs
  have h2 : s.maxElem = some hi := (C02_maxElem_partial s w w2 (UInt8.le_iff_toNat_le.2 w1) hi).2
    ⟨(h hi).2 ⟨hle, UInt8.le_refl _⟩, fun b hb => ((h b).1 hb).2⟩
  have h3 : s = fromRangeInclusive lo hi := (C01_ext _ _).2 fun b => by
    rw [Bool.eq_iff_iff, h b, C01_contains_fromRangeInclusive]
  unfold contiguousWith spanWith
  rw [h1, h2]
  simp only []
  rw [if_pos (UInt8.le_iff_toNat_le.1 hle)]
  have : s.len = hi.toNat - lo.toNat + 1 := by rw [h3, len_range hle]
  rw [this]
  simp [bind, Panicky.bind]

/-! ## Runs -/

/-- `b` is one of the bytes of the run -/
def InRun (r : UInt8 × Nat) (b : UInt8) : Prop := r.1.toNat ≤ b.toNat ∧ b.toNat < r.1.toNat + r.2

theorem runs_spec : ∀ (k : Nat) (s : ByteSet), (∀ b, s.contains b = true → 256 ≤ b.toNat + k) →
    ∃ rs, runs k s = .ok rs ∧ (∀ r ∈ rs, 1 ≤ r.2 ∧ r.1.toNat + r.2 ≤ 256) ∧ (∀ b, s.contains b = true ↔ ∃ r ∈ rs, InRun r b) ∧
      ∀ r ∈ rs, ∀ c : UInt8, c.toNat = r.1.toNat + r.2 → s.contains c = false
  | 0, s, h => by
    have : s.minElem = none := (C02_minElem_none s).2 fun c hc => by
      have := h c hc
      have := c.toNat_lt
      omega
    refine ⟨[], by unfold runs; rw [this], by simp, fun b => ?_, by simp⟩
    simpa using (C02_minElem_none s).1 this b
  | k + 1, s, h => by
    cases hm : s.minElem with
    | none =>
      refine ⟨[], by unfold runs; rw [hm], by simp, fun b => ?_, by simp⟩
      simpa using (C02_minElem_none s).1 hm b
    | some x =>
      obtain ⟨m1, m2⟩ := (C02_minElem_some s x).1 hm
      cases hr : s.findEnclosingRange x with
      | none => rw [(C02_findEnclosingRange_none s x).1 hr] at m1; cases m1
      | some p =>
        obtain ⟨lo, hi⟩ := p
        obtain ⟨r1, r2, r3, r4, r5⟩ := C02_findEnclosingRange s x lo hi hr
        have l1 := UInt8.le_iff_toNat_le.1 r1
        have l2 := UInt8.le_iff_toNat_le.1 r2
        have lx : lo = x := by
          rw [← UInt8.toNat_inj]
          have := UInt8.le_iff_toNat_le.1 (m2 lo (r3 lo (UInt8.le_refl _) (UInt8.le_trans r1 r2)))
          omega
        subst lx
        have hd : ∀ b, (s.difference (fromRangeInclusive lo hi)).contains b = true ↔ s.contains b = true ∧ hi.toNat < b.toNat := by
          intro b
          rw [C01_contains_difference, C01_contains_fromRangeInclusive]
          constructor
          · rintro ⟨h1, h2⟩
            refine ⟨h1, ?_⟩
            have := UInt8.le_iff_toNat_le.1 (m2 b h1)
            exact Classical.byContradiction fun hn => h2 ⟨m2 b h1, UInt8.le_iff_toNat_le.2 (by omega)⟩
          · rintro ⟨h1, h2⟩
            refine ⟨h1, fun h3 => ?_⟩
            have := UInt8.le_iff_toNat_le.1 h3.2
            omega
        obtain ⟨rs, e1, e2, e3, e4⟩ := runs_spec k (s.difference (fromRangeInclusive lo hi)) fun b hb => by
          obtain ⟨h1, h2⟩ := (hd b).1 hb
          have := h lo m1
          omega
        have hh := hi.toNat_lt
        refine ⟨(lo, hi.toNat - lo.toNat + 1) :: rs, ?_, ?_, ?_, ?_⟩
        · unfold runs
          rw [hm]
          simp only []
          rw [hr]
          simp only []
          rw [e1]
          rfl
        · intro r hr
          rcases List.mem_cons.1 hr with rfl | hr
          · exact ⟨by omega, by simp only []; omega⟩
          · exact e2 r hr
        · intro b
          simp only [exists_cons]
          rw [← e3 b, hd b]
          unfold InRun
          simp only []
          constructor
          · intro hb
            have := UInt8.le_iff_toNat_le.1 (m2 b hb)
            by_cases hc : hi.toNat < b.toNat
            · exact .inr ⟨hb, hc⟩
            · exact .inl ⟨this, by omega⟩
          · rintro (⟨h1, h2⟩ | h1)
            · exact r3 b (UInt8.le_iff_toNat_le.2 h1) (UInt8.le_iff_toNat_le.2 (by omega))
            · exact h1.1
        · intro r hr c hc
          rcases List.mem_cons.1 hr with rfl | hr
          · exact r5 c (by simp only [] at hc; omega)
          · cases hs : s.contains c with
            | false => rfl
            | true =>
              have h1 := e4 r hr c hc
              have h2 := ((hd r.1).1 ((e3 r.1).2 ⟨r, hr, by unfold InRun; have := (e2 r hr).1; omega⟩)).2
              rw [(hd c).2 ⟨hs, by omega⟩] at h1
              cases h1

theorem mem_byRank {rs : List (UInt8 × Nat)} (h : ∀ r ∈ rs, r.2 < 256) (r : UInt8 × Nat) : r ∈ byRank rs ↔ r ∈ rs := by
  unfold byRank
  simp only [List.mem_flatMap, List.mem_range, List.mem_filter, decide_eq_true_eq]
  constructor
  · rintro ⟨_, _, h, _⟩; exact h
  · intro hr; exact ⟨r.2, h r hr, hr, rfl⟩

theorem last_byte {lo : UInt8} {n : Nat} (h : 1 ≤ n) (h' : lo.toNat + n ≤ 256) (h4 : n < 256) :
    (lo + UInt8.ofNat n - 1).toNat = lo.toNat + n - 1 := by
  rw [UInt8.toNat_sub, UInt8.toNat_add, toNat_ofNat_lt n h4, show (1 : UInt8).toNat = 1 from rfl]
  omega

theorem long_means (oc : Bool) : ∀ rs : List (UInt8 × Nat), (∀ r ∈ rs, 1 ≤ r.2 ∧ r.1.toNat + r.2 ≤ 256 ∧ r.2 < 256) →
    (oc = false ∨ ∀ r ∈ rs, 4 ≤ r.2 → r.1.toNat + r.2 < 256) →
    ∃ ps, longPieces oc rs = .ok ps ∧ ∀ b, Means ps b ↔ ∃ r ∈ rs, 4 ≤ r.2 ∧ InRun r b
  | [], _, _ => ⟨[], rfl, fun b => by simp [Means]⟩
  | (lo, n) :: rs, h, ho => by
    obtain ⟨ps, e1, e2⟩ := long_means oc rs (fun r hr => h r (List.mem_cons_of_mem _ hr))
      (ho.imp id fun ho r hr => ho r (List.mem_cons_of_mem _ hr))
    have h1 := h _ (List.mem_cons_self (a := (lo, n)))
    simp only [] at h1
    unfold longPieces
    by_cases hn : 4 ≤ n
    · rw [if_pos hn, if_neg]
      · rw [e1]
        refine ⟨_, rfl, fun b => ?_⟩
        simp only [Means, exists_cons] at e2 ⊢
        rw [e2 b]
        refine or_congr ?_ Iff.rfl
        simp only [Piece.Means, InRun, UInt8.le_iff_toNat_le, last_byte h1.1 h1.2.1 h1.2.2]
        omega
      · rintro ⟨h2, h3⟩
        rcases ho with ho | ho
        · rw [ho] at h2; cases h2
        · have := ho (lo, n) List.mem_cons_self hn
          simp only [] at this
          omega
    · rw [if_neg hn]
      refine ⟨ps, e1, fun b => ?_⟩
      rw [e2 b]
      simp only [exists_cons, hn, false_and, false_or]

theorem long_panics : ∀ rs : List (UInt8 × Nat), (∃ r ∈ rs, 4 ≤ r.2 ∧ 256 ≤ r.1.toNat + r.2) → longPieces true rs = .panic
  | [], h => by simp at h
  | (lo, n) :: rs, h => by
    unfold longPieces
    by_cases hn : 4 ≤ n
    · rw [if_pos hn]
      split
      · rfl
      · next hl =>
        rcases exists_cons.1 h with ⟨_, h1⟩ | h1
        · exact absurd ⟨rfl, h1⟩ hl
        · rw [long_panics rs h1]; rfl
    · rw [if_neg hn]
      rcases exists_cons.1 h with ⟨h1, _⟩ | h1
      · exact absurd h1 hn
      · exact long_panics rs h1

theorem mem_runBytes {r : UInt8 × Nat} (h : r.1.toNat + r.2 ≤ 256) (b : UInt8) : b ∈ runBytes r ↔ InRun r b := by
  unfold runBytes InRun
  simp only [List.mem_map, List.mem_range'_1]
  constructor
  · rintro ⟨i, hi, rfl⟩
    rw [toNat_ofNat_lt i (by omega)]
    omega
  · intro hb
    exact ⟨b.toNat, hb, by simp⟩

theorem short_means {rs : List (UInt8 × Nat)} (h : ∀ r ∈ rs, r.1.toNat + r.2 ≤ 256) (b : UInt8) :
    (shortBytes rs).contains b = true ↔ ∃ r ∈ rs, ¬ 4 ≤ r.2 ∧ InRun r b := by
  unfold shortBytes
  rw [C01_contains_fromIter]
  simp only [List.mem_flatMap, List.mem_filter, decide_eq_true_eq]
  constructor
  · rintro ⟨r, ⟨h1, h2⟩, h3⟩
    exact ⟨r, h1, by omega, (mem_runBytes (h r h1) b).1 h3⟩
  · rintro ⟨r, h1, h2, h3⟩
    exact ⟨r, ⟨h1, by omega⟩, (mem_runBytes (h r h1) b).2 h3⟩

/-- no run of four bytes ends at 255 -/
def TopFree (s : ByteSet) : Prop := ∃ b : UInt8, 252 ≤ b.toNat ∧ s.contains b = false

theorem rank_lt {s : ByteSet} (hf : s.isFull = false) {rs : List (UInt8 × Nat)} (h2 : ∀ r ∈ rs, 1 ≤ r.2 ∧ r.1.toNat + r.2 ≤ 256)
    (h3 : ∀ b, s.contains b = true ↔ ∃ r ∈ rs, InRun r b) : ∀ r ∈ rs, r.2 < 256 := by
  intro r hr
  refine Classical.byContradiction fun hn => ?_
  have := h2 r hr
  rw [(C01_isFull s).2 fun b => (h3 b).2 ⟨r, hr, by unfold InRun; have := b.toNat_lt; omega⟩] at hf
  cases hf

theorem fallback_means (oc : Bool) {s : ByteSet} (hf : s.isFull = false) (hc : s.contiguousWith oc = .ok false)
    (ht : oc = false ∨ s.TopFree) : ∃ ps, s.fallback oc = .ok ps ∧ ∀ b, Means ps b ↔ s.contains b = true := by
  obtain ⟨rs, h1, h2, h3, _⟩ := runs_spec 256 s (fun b _ => by omega)
  have h4 := rank_lt hf h2 h3
  have hm := mem_byRank h4
  obtain ⟨ps, e1, e2⟩ := long_means oc (byRank rs) (fun r hr => by
      have hr := (hm r).1 hr
      exact ⟨(h2 r hr).1, (h2 r hr).2, h4 r hr⟩) (ht.imp id fun ⟨b, b1, b2⟩ r hr hn => by
      have hr := (hm r).1 hr
      refine Classical.byContradiction fun hlt => ?_
      rw [(h3 b).2 ⟨r, hr, by unfold InRun; have := (h2 r hr).2; have := b.toNat_lt; omega⟩] at b2
      cases b2)
  have e3 := short_means (rs := byRank rs) (fun r hr => (h2 r ((hm r).1 hr)).2)
  have split : ∀ b, s.contains b = true ↔ Means ps b ∨ (shortBytes (byRank rs)).contains b = true := by
    intro b
    rw [h3 b, e2 b, e3 b]
    constructor
    · rintro ⟨r, hr, hb⟩
      by_cases hn : 4 ≤ r.2
      · exact .inl ⟨r, (hm r).2 hr, hn, hb⟩
      · exact .inr ⟨r, (hm r).2 hr, hn, hb⟩
    · rintro (⟨r, hr, _, hb⟩ | ⟨r, hr, _, hb⟩) <;> exact ⟨r, (hm r).1 hr, hb⟩
  unfold fallback
  rw [hc]
  simp only [bind, Panicky.bind, h1, e1, Bool.false_eq_true, if_false]
  split
  · next he =>
    refine ⟨ps, rfl, fun b => ?_⟩
    rw [split b]
    exact ⟨.inl, fun h => h.resolve_right ((C01_isEmpty _).1 he b)⟩
  · obtain ⟨p, p1, p2⟩ := raw_means (shortBytes (byRank rs))
    rw [p1]
    refine ⟨_, rfl, fun b => ?_⟩
    rw [split b, ← p2 b]
    unfold Means
    simp only [List.mem_append, List.mem_singleton]
    constructor
    · rintro ⟨q, hq | rfl, hb⟩
      · exact .inl ⟨q, hq, hb⟩
      · exact .inr hb
    · rintro (⟨q, hq, hb⟩ | hb)
      · exact ⟨q, .inl hq, hb⟩
      · exact ⟨p, .inr rfl, hb⟩

/-! ## The property -/

/-- What is printed stands for the set, if a byte of the top quarter is in the set or 191 is not: in a build without overflow
checks always, with overflow checks if not all of the last four bytes are in the set. -/
theorem C63_printed_partial (oc : Bool) (s : ByteSet)
    (hs : (∃ w : UInt8, 192 ≤ w.toNat ∧ s.contains w = true) ∨ s.contains 191 = false)
    (ht : oc = false ∨ ∃ b : UInt8, 252 ≤ b.toNat ∧ s.contains b = false) :
    ∃ ps, s.pieces oc = .ok ps ∧ s.display oc = .ok (" ∪ ".intercalate (ps.map Piece.text)) ∧
      ∀ b, s.contains b = true ↔ Means ps b := by
  have : ∃ ps, s.pieces oc = .ok ps ∧ ∀ b, Means ps b ↔ s.contains b = true := by
    unfold pieces
    cases ha : s.asToken with
    | some t => exact ⟨_, rfl, fun b => by simpa [Means, Piece.Means] using token_means ha b⟩
    | none =>
      have hf : s.isFull = false := by
        cases h : s.isFull with
        | false => rfl
        | true => unfold asToken at ha; rw [h] at ha; cases ha
      obtain ⟨c, hc⟩ := contiguous_total oc s (.inr hs)
      cases c with
      | false =>
        have : s.asRange oc = .ok none := by unfold asRange; rw [hc]; rfl
        simp only [this, bind, Panicky.bind]
        exact fallback_means oc hf hc ht
      | true =>
        rcases asRange_cases hc with ⟨p, p1, h⟩ | ⟨hl, lo, hi, h1, h2, h⟩
        · obtain ⟨q, q1, q2⟩ := raw_means s
          rw [p1] at q1
          cases q1
          simp only [h, bind, Panicky.bind]
          exact ⟨_, rfl, fun b => by simpa [Means] using q2 b⟩
        · obtain ⟨lo', hi', h3, h4, h5⟩ := contiguous_range hs hc hl
          rw [h1] at h3
          rw [h2] at h4
          cases h3
          cases h4
          simp only [h, bind, Panicky.bind]
          exact ⟨_, rfl, fun b => by simpa [Means, Piece.Means] using (h5 b).symm⟩
  obtain ⟨ps, h1, h2⟩ := this
  exact ⟨ps, h1, by unfold display; rw [h1]; rfl, fun b => (h2 b).symm⟩

/-- Sets that are printed alike are equal, with the same restrictions. -/
theorem C63_injective_partial (oc : Bool) (s t : ByteSet)
    (hs : (∃ w : UInt8, 192 ≤ w.toNat ∧ s.contains w = true) ∨ s.contains 191 = false)
    (ht : (∃ w : UInt8, 192 ≤ w.toNat ∧ t.contains w = true) ∨ t.contains 191 = false)
    (ps : List Piece) (h1 : s.pieces oc = .ok ps) (h2 : t.pieces oc = .ok ps)
    (h3 : oc = false ∨ (∃ b : UInt8, 252 ≤ b.toNat ∧ s.contains b = false) ∧ ∃ b : UInt8, 252 ≤ b.toNat ∧ t.contains b = false) :
    s = t := by
  obtain ⟨p, e1, _, e2⟩ := C63_printed_partial oc s hs (h3.imp id And.left)
  obtain ⟨q, f1, _, f2⟩ := C63_printed_partial oc t ht (h3.imp id And.right)
  rw [h1] at e1
  rw [h2] at f1
  cases e1
  cases f1
  exact (C01_ext s t).2 fun b => by rw [Bool.eq_iff_iff, e2 b, f2 b]

/-- Without overflow checks printing never panics. -/
theorem C63_release_total (s : ByteSet) : ∃ ps, s.pieces false = .ok ps := by
  unfold pieces
  cases ha : s.asToken with
  | some t => exact ⟨_, rfl⟩
  | none =>
    have hf : s.isFull = false := by
      cases h : s.isFull with
      | false => rfl
      | true => unfold asToken at ha; rw [h] at ha; cases ha
    obtain ⟨c, hc⟩ := contiguous_total false s (.inl rfl)
    cases c with
    | false =>
      have : s.asRange false = .ok none := by unfold asRange; rw [hc]; rfl
      simp only [this, bind, Panicky.bind]
      obtain ⟨ps, h, _⟩ := fallback_means false hf hc (.inl rfl)
      exact ⟨ps, h⟩
    | true =>
      obtain ⟨p, h⟩ := asRange_total hc
      simp only [h, bind, Panicky.bind]
      exact ⟨_, rfl⟩

theorem token_top {s : ByteSet} {t : String} (h : s.asToken = some t) (h255 : s.contains 255 = true) : s.isFull = true := by
  have := (token_means h 255).2 h255
  unfold asToken at h
  split at h
  · assumption
  repeat' split at h
  all_goals cases h
  all_goals exact absurd this (by simp only [Named]; decide)

/-- With overflow checks, printing a set that contains the last four bytes panics exactly if the set is not a range. -/
theorem C63_panics_iff (s : ByteSet) (h : ∀ b : UInt8, 252 ≤ b.toNat → s.contains b = true) :
    s.pieces true = .panic ↔ ¬ ∃ lo, s.IsRange lo 255 := by
  have hw : ∃ w : UInt8, 192 ≤ w.toNat ∧ s.contains w = true := ⟨255, by decide, h 255 (by decide)⟩
  constructor
  · rintro hp ⟨lo, hr⟩
    have hc := range_contiguous (oc := true) hw hr ((hr 255).1 (h 255 (by decide))).1
    have : ∃ ps, s.pieces true = .ok ps := by
      unfold pieces
      cases ha : s.asToken with
      | some t => exact ⟨_, rfl⟩
      | none =>
        obtain ⟨p, h⟩ := asRange_total hc
        simp only [h, bind, Panicky.bind]
        exact ⟨_, rfl⟩
    obtain ⟨ps, hps⟩ := this
    rw [hp] at hps
    cases hps
  · intro hr
    have hf : s.isFull = false := by
      cases hf : s.isFull with
      | false => rfl
      | true =>
        refine absurd ⟨0, fun b => ?_⟩ hr
        simp only [(C01_isFull s).1 hf b, true_iff, UInt8.le_iff_toNat_le]
        have := b.toNat_lt
        exact ⟨Nat.zero_le _, by have : (255 : UInt8).toNat = 255 := rfl; omega⟩
    have ha : s.asToken = none := by
      cases ha : s.asToken with
      | none => rfl
      | some t => rw [token_top ha (h 255 (by decide))] at hf; cases hf
    obtain ⟨c, hc⟩ := contiguous_total true s (.inr (.inl hw))
    cases c with
    | true =>
      have h0 : s.len ≠ 0 := fun h0 => by
        have := len_zero h0 255
        rw [h 255 (by decide)] at this
        cases this
      obtain ⟨lo, hi, h1, h2, h3⟩ := contiguous_range (.inl hw) hc h0
      refine absurd ⟨lo, ?_⟩ hr
      have : hi = 255 := by
        rw [← UInt8.toNat_inj]
        have h4 := UInt8.le_iff_toNat_le.1 ((h3 255).1 (h 255 (by decide))).2
        have := hi.toNat_lt
        have e : (255 : UInt8).toNat = 255 := rfl
        omega
      rw [← this]
      exact h3
    | false =>
      obtain ⟨rs, r1, r2, r3, r4⟩ := runs_spec 256 s (fun b _ => by omega)
      have hm := mem_byRank (rank_lt hf r2 r3)
      have hp : longPieces true (byRank rs) = .panic := by
        refine long_panics _ ?_
        obtain ⟨r, hr, hb⟩ := (r3 252).1 (h 252 (by decide))
        unfold InRun at hb
        have e : (252 : UInt8).toNat = 252 := rfl
        have hend : 256 ≤ r.1.toNat + r.2 := by
          refine Classical.byContradiction fun hn => ?_
          have hl := toNat_ofNat_lt (r.1.toNat + r.2) (by omega)
          have := r4 r hr (UInt8.ofNat (r.1.toNat + r.2)) hl
          rw [h _ (by omega)] at this
          cases this
        exact ⟨r, (hm r).2 hr, by omega, hend⟩
      have : s.asRange true = .ok none := by unfold asRange; rw [hc]; rfl
      unfold pieces
      rw [ha]
      simp only [this, bind, Panicky.bind]
      unfold fallback
      rw [hc]
      simp only [bind, Panicky.bind, r1, hp, Bool.false_eq_true, if_false]

/-! ## Cases -/

/-- ASCII and 255, as in the test of the project -/
example : (fromRangeInclusive 0 127 |>.union (singleton 255)).pieces true = .ok [.range 0 127, .one 255] := by decide +kernel

example : (fromIter [65, 66, 67, 68, 70, 80]).pieces true = .ok [.range 65 68, .list [70, 80]] := by decide +kernel

/-- every byte but the line feed -/
example : (singleton 10).complement.pieces false = .ok [.range 0 9, .range 11 255] := by decide +kernel

/-! ## What does not hold -/

/-- Two sets are printed alike: the bytes up to 190, and the bytes up to 191 without 190 (`max_elem` takes 190, the largest byte
that is missing, for the largest member, and the number of bytes happens to fit). -/
theorem C63_injective_refuted : ∃ s t : ByteSet, s ≠ t ∧ ∀ oc, s.pieces oc = .ok [.range 0 190] ∧ t.pieces oc = .ok [.range 0 190] :=
  ⟨fromRangeInclusive 0 190, (fromRangeInclusive 0 189).union (singleton 191), by decide +kernel, by decide +kernel⟩

/-- With overflow checks, printing "every byte but the line feed" panics. -/
theorem C63_panic_refuted : (singleton 10).complement.pieces true = .panic := by decide +kernel

/-- With overflow checks, printing the continuation bytes of UTF-8 panics. -/
theorem C63_span_refuted : (fromRangeInclusive 0x80 0xBF).pieces true = .panic := by decide +kernel

end ByteSet
end Doodle
