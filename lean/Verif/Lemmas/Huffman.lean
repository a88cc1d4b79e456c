import Verif.Model.Huffman
import Verif.Spec.Huffman

namespace Doodle
namespace Huffman
variable {α : Type}

/-! ### sums -/

theorem sumIf_append (p : α → Bool) (g : α → Nat) (a b : List α) :
    sumIf p g (a ++ b) = sumIf p g a + sumIf p g b := by
  induction a with
  | nil => simp [sumIf]
  | cons x xs ih => simp only [List.cons_append, sumIf, ih]; omega

theorem sumIf_le_of (p q : α → Bool) (g h : α → Nat) (l : List α)
    (hpq : ∀ x ∈ l, p x = true → q x = true) (hgh : ∀ x ∈ l, p x = true → g x ≤ h x) :
    sumIf p g l ≤ sumIf q h l := by
  induction l with
  | nil => simp [sumIf]
  | cons x xs ih =>
    have := ih (fun y hy => hpq y (by simp [hy])) (fun y hy => hgh y (by simp [hy]))
    simp only [sumIf]
    by_cases c : p x = true
    · have h1 := hpq x (by simp) c
      have h2 := hgh x (by simp) c
      rw [if_pos c, if_pos h1]; omega
    · rw [if_neg c]; split <;> omega

theorem sumIf_le_extra (p q : α → Bool) (g : α → Nat) (l : List α) (x : α) (hx : x ∈ l)
    (hq : q x = true) (hp : p x = false) (hpq : ∀ y ∈ l, p y = true → q y = true) :
    sumIf p g l + g x ≤ sumIf q g l := by
  induction l with
  | nil => cases hx
  | cons y ys ih =>
    simp only [sumIf]
    cases hx with
    | head =>
      have h1 := sumIf_le_of p q g g ys (fun z hz => hpq z (by simp [hz])) (fun _ _ _ => Nat.le_refl _)
      rw [hp, hq]; simp; omega
    | tail _ hx =>
      have h1 := ih hx (fun z hz => hpq z (by simp [hz]))
      by_cases c : p y = true
      · rw [if_pos c, if_pos (hpq y (by simp) c)]; omega
      · rw [if_neg c]; split <;> omega

theorem sumIf_congr (p q : α → Bool) (g h : α → Nat) (l : List α)
    (hpq : ∀ x ∈ l, p x = q x) (hgh : ∀ x ∈ l, p x = true → g x = h x) :
    sumIf p g l = sumIf q h l := by
  induction l with
  | nil => rfl
  | cons x xs ih =>
    simp only [sumIf]
    rw [ih (fun y hy => hpq y (by simp [hy])) (fun y hy => hgh y (by simp [hy])), hpq x (by simp)]
    by_cases c : q x = true
    · rw [if_pos c, if_pos c, hgh x (by simp) (by rw [hpq x (by simp)]; exact c)]
    · rw [if_neg c, if_neg c]

theorem sumIf_mul (p : α → Bool) (g : α → Nat) (l : List α) (c : Nat) :
    sumIf p (fun x => c * g x) l = c * sumIf p g l := by
  induction l with
  | nil => simp [sumIf]
  | cons x xs ih => simp only [sumIf, ih, Nat.mul_add]; split <;> simp

theorem sumIf_bound (p : α → Bool) (g : α → Nat) (l : List α) (c : Nat)
    (h : ∀ x ∈ l, p x = true → g x ≤ c) : sumIf p g l ≤ l.length * c := by
  induction l with
  | nil => simp [sumIf]
  | cons x xs ih =>
    have := ih (fun y hy => h y (by simp [hy]))
    simp only [sumIf, List.length_cons, Nat.add_mul, Nat.one_mul]
    by_cases c' : p x = true
    · rw [if_pos c']; have := h x (by simp) c'; omega
    · rw [if_neg c']; omega

theorem sumIf_zipIdx (p : Nat → Bool) (g : Nat → Nat) (L : List Nat) (k : Nat) :
    sumIf (fun x => p x.1) (fun x => g x.1) (L.zipIdx k) = sumIf p g L := by
  induction L generalizing k with
  | nil => rfl
  | cons x xs ih => simp only [List.zipIdx_cons, sumIf, ih]

/-! ### code values -/

/-- value of `next_code[b]` before any assignment -/
def base (L : List Nat) (b : Nat) : Nat :=
  sumIf (fun l => l != 0 && decide (l < b)) (fun l => 2 ^ (b - l)) L

theorem base_succ (L : List Nat) (b : Nat) :
    base L (b + 1) = 2 * (base L b + (if b = 0 then 0 else L.count b)) := by
  unfold base
  induction L with
  | nil => simp [sumIf]
  | cons x xs ih =>
    simp only [sumIf, ih, List.count_cons]
    by_cases h0 : x = 0
    · subst h0
      by_cases hb : b = 0
      · simp [hb]
      · have : ¬ (0 = b) := fun h => hb h.symm
        simp [hb, this]
    · by_cases h1 : x < b
      · have e : b + 1 - x = (b - x) + 1 := by omega
        have hb : b ≠ 0 := by omega
        have hne : ¬ (x = b) := by omega
        have h1' : x < b + 1 := by omega
        simp [h0, h1, h1', e, hb, hne, Nat.pow_succ]; omega
      · by_cases h2 : x = b
        · subst h2; simp [h0]; try omega
        · have h3 : ¬ (x < b + 1) := by omega
          by_cases hb : b = 0
          · simp [hb]; try omega
          · simp [h0, h1, h2, h3, hb]

theorem sumIf_lt_split (L : List Nat) (n ln k : Nat) :
    sumIf (before n ln) (fun p => 2 ^ (ln - p.1)) (L.zipIdx k) =
      sumIf (fun l => l != 0 && decide (l < ln)) (fun l => 2 ^ (ln - l)) L +
      (if ln = 0 then 0 else (L.take (n - k)).count ln) := by
  induction L generalizing k with
  | nil => simp [sumIf]
  | cons x xs ih =>
    simp only [List.zipIdx_cons, sumIf, ih (k + 1)]
    by_cases hln : ln = 0
    · simp [hln, before]
      intro h1 h2; omega
    · simp only [hln, if_false]
      by_cases hk : k < n
      · have e : n - k = (n - (k + 1)) + 1 := by omega
        rw [e, List.take_succ_cons, List.count_cons]
        simp only [before]
        by_cases h0 : x = 0
        · subst h0
          have : ¬ (0 = ln) := fun h => hln h.symm
          simp [this]
        · by_cases h1 : x < ln
          · have : ¬ (x = ln) := by omega
            simp [h0, h1, this]; omega
          · by_cases h2 : x = ln
            · subst h2; simp [h0, hk]; omega
            · simp [h0, h1, h2]
      · have e : n - k = 0 := by omega
        have e2 : n - (k + 1) = 0 := by omega
        simp only [e, e2, List.take_zero, List.count_nil, before]
        by_cases h1 : x < ln
        · simp [h1]
        · by_cases h2 : x = ln
          · subst h2; simp; try omega
          · simp [h1, h2]

theorem canonCode_eq (L : List Nat) (n ln : Nat) (h : ln ≠ 0) :
    canonCode L n ln = base L ln + (L.take n).count ln := by
  unfold canonCode base
  rw [sumIf_lt_split L n ln 0, if_neg h]; simp

/-! ### the arrays -/

theorem load_ok {xs : List Nat} {i : Nat} {v : Nat} : load xs i = .ok v ↔ xs[i]? = some v := by
  unfold load; cases xs[i]? <;> simp

theorem store_ok {xs : List Nat} {i v : Nat} (h : i < xs.length) : store xs i v = .ok (xs.set i v) := by
  unfold store; rw [if_pos h]

theorem foldl_max_ge (l : List Nat) (a : Nat) : a ≤ l.foldl Nat.max a ∧ ∀ x ∈ l, x ≤ l.foldl Nat.max a := by
  induction l generalizing a with
  | nil => simp
  | cons y ys ih =>
    obtain ⟨h1, h2⟩ := ih (Nat.max a y)
    have ha : a ≤ Nat.max a y := Nat.le_max_left _ _
    have hy : y ≤ Nat.max a y := Nat.le_max_right _ _
    refine ⟨Nat.le_trans ha h1, ?_⟩
    intro x hx
    simp only [List.foldl_cons]
    cases hx with
    | head => exact Nat.le_trans hy h1
    | tail _ hx => exact h2 x hx

theorem foldl_max_mem (l : List Nat) (a : Nat) : l.foldl Nat.max a = a ∨ l.foldl Nat.max a ∈ l := by
  induction l generalizing a with
  | nil => simp
  | cons y ys ih =>
    simp only [List.foldl_cons]
    rcases ih (Nat.max a y) with h | h
    · rw [h]
      rcases Nat.le_total a y with c | c
      · right; rw [show Nat.max a y = y from Nat.max_eq_right c]; simp
      · left; exact Nat.max_eq_left c
    · right; simp [h]

theorem maxLength_spec (L : List Nat) (h : L ≠ []) :
    ∃ m, maxLength L = .ok m ∧ m ∈ L ∧ ∀ x ∈ L, x ≤ m := by
  cases L with
  | nil => exact absurd rfl h
  | cons a l =>
    refine ⟨_, rfl, ?_, ?_⟩
    · rcases foldl_max_mem l a with h | h
      · rw [h]; simp
      · simp [h]
    · intro x hx
      cases hx with
      | head => exact (foldl_max_ge l a).1
      | tail _ hx => exact (foldl_max_ge l a).2 x hx

theorem countLoop_spec (L bl : List Nat) (h : ∀ x ∈ L, x < bl.length) :
    ∃ bl', countLoop bl L = .ok bl' ∧ bl'.length = bl.length ∧
      ∀ i, i < bl.length → bl'[i]? = (bl[i]?).map (· + L.count i) := by
  induction L generalizing bl with
  | nil => exact ⟨bl, rfl, rfl, by intro i hi; simp [hi]⟩
  | cons x xs ih =>
    have hx := h x (by simp)
    have hl : load bl x = .ok bl[x] := load_ok.2 (List.getElem?_eq_getElem hx)
    obtain ⟨bl', h1, h2, h3⟩ := ih (bl.set x (bl[x] + 1)) (by intro y hy; simp; exact h y (by simp [hy]))
    refine ⟨bl', ?_, by simpa using h2, ?_⟩
    · simp only [countLoop, hl, store_ok hx, h1]
    · intro i hi
      rw [h3 i (by simpa using hi)]
      rw [List.getElem?_set]
      by_cases c : x = i
      · subst c
        simp [hx, List.count_cons]; omega
      · simp [c, List.count_cons, hi]

theorem nextLoop_spec (L bl : List Nat) (m : Nat) (hbl : ∀ i, i ≤ m → bl[i]? = some (if i = 0 then 0 else L.count i))
    (hb : ∀ b, b ≤ m → base L b + L.count b < usizeCard / 2) (n bits : Nat) (next : List Nat)
    (hbits : 1 ≤ bits) (hn : bits + n = m + 1) (hlen : next.length = m + 1)
    (hprev : ∀ b, 1 ≤ b → b < bits → next[b]? = some (base L b)) :
    ∃ next', nextLoop bl n bits (base L (bits - 1)) next = .ok next' ∧ next'.length = m + 1 ∧
      ∀ b, 1 ≤ b → b ≤ m → next'[b]? = some (base L b) := by
  induction n generalizing bits next with
  | zero => exact ⟨next, rfl, hlen, fun b h1 h2 => hprev b h1 (by omega)⟩
  | succ n ih =>
    have hl := load_ok.2 (hbl (bits - 1) (by omega))
    have hbb := hb (bits - 1) (by omega)
    have hle : (if bits - 1 = 0 then 0 else L.count (bits - 1)) ≤ L.count (bits - 1) := by
      split <;> omega
    have hs := base_succ L (bits - 1)
    rw [show bits - 1 + 1 = bits by omega] at hs
    generalize hc : (if bits - 1 = 0 then 0 else L.count (bits - 1)) = c at *
    have hcard : usizeCard / 2 + usizeCard / 2 = usizeCard := by decide +kernel
    have hmod : (base L (bits - 1) + c) * 2 % usizeCard = base L bits := by
      rw [Nat.mod_eq_of_lt (by omega)]; omega
    simp only [nextLoop, hl, if_pos (show base L (bits - 1) + c < usizeCard by omega), hmod,
      store_ok (show bits < next.length by omega)]
    have := ih (bits + 1) (next.set bits (base L bits)) (by omega) (by omega) (by simpa using hlen)
      (by
        intro b h1 h2
        rw [List.getElem?_set]
        by_cases c : bits = b
        · subst c; simp; omega
        · rw [if_neg c]; exact hprev b h1 (by omega))
    simpa using this

/-- Sizes for which no word operation wraps or panics. -/
def Small (L : List Nat) : Prop := L ≠ [] ∧ L.length ≤ 65536 ∧ ∀ l ∈ L, l ≤ 47

theorem pow_le (a b : Nat) (h : a ≤ b) : 2 ^ a ≤ 2 ^ b := Nat.pow_le_pow_right (by omega) h

theorem base_bound (L : List Nat) (hs : Small L) (b : Nat) (hb : b ≤ 47) :
    base L b + L.count b < usizeCard / 2 := by
  have h1 : base L b ≤ L.length * 2 ^ 46 := by
    apply sumIf_bound
    intro x _ hx
    simp at hx
    exact pow_le _ _ (by omega)
  have h2 : L.count b ≤ L.length := List.count_le_length
  have h3 := hs.2.1
  have : usizeCard / 2 = 2 ^ 63 := by decide +kernel
  rw [this]
  have : L.length * 2 ^ 46 ≤ 65536 * 2 ^ 46 := Nat.mul_le_mul_right _ h3
  omega

theorem nextCodes_spec (L : List Nat) (hs : Small L) :
    ∃ next m, nextCodes L = .ok next ∧ next.length = m + 1 ∧ (∀ l ∈ L, l ≤ m) ∧
      ∀ b, 1 ≤ b → b ≤ m → next[b]? = some (base L b) := by
  obtain ⟨m, hm, hmem, hmax⟩ := maxLength_spec L hs.1
  obtain ⟨bl, hbl, hlen, hget⟩ := countLoop_spec L (List.replicate (m + 1) 0)
    (by intro x hx; have := hmax x hx; simp; omega)
  have hm47 := hs.2.2 m hmem
  simp only [List.length_replicate] at hlen hget
  have h0 : store bl 0 0 = .ok (bl.set 0 0) := store_ok (by omega)
  obtain ⟨next, h1, h2, h3⟩ := nextLoop_spec L (bl.set 0 0) m
    (by
      intro i hi
      rw [List.getElem?_set]
      by_cases c : i = 0
      · subst c; rw [if_pos rfl, if_pos (by omega)]; rfl
      · rw [if_neg (by omega), hget i (by omega), if_neg c]
        simp [show i < m + 1 by omega] )
    (fun b hb => base_bound L hs b (by omega)) m 1 (List.replicate (m + 1) 0) (by omega) (by omega)
    (by simp) (by intro b h1 h2; omega)
  refine ⟨next, m, ?_, h2, hmax, h3⟩
  have hb0 : base L (1 - 1) = 0 := by
    unfold base
    have : ∀ (l : List Nat), sumIf (fun l => l != 0 && decide (l < 1 - 1)) (fun l => 2 ^ (1 - 1 - l)) l = 0 := by
      intro l
      induction l with
      | nil => rfl
      | cons x xs ih => simp only [sumIf, ih]; simp
    exact this L
  rw [hb0] at h1
  simp only [nextCodes, hm, hbl, h0, h1]

/-! ### bits -/

theorem bitRange_spec (len v : Nat) (h : len ≤ 64) : bitRange len v = .ok (bitsOf len v) := by
  induction len with
  | zero => rfl
  | succ r ih =>
    simp only [bitRange, if_pos (show r < 64 by omega), ih (by omega), bitsOf, Nat.testBit_eq_decide_div_mod_eq,
      decide_eq_true_eq]

theorem bitsOf_length (len v : Nat) : (bitsOf len v).length = len := by
  induction len with
  | zero => rfl
  | succ r ih => simp [bitsOf, ih]

theorem bitsOf_bits (len v : Nat) : ∀ b ∈ bitsOf len v, b = 0 ∨ b = 1 := by
  induction len with
  | zero => simp [bitsOf]
  | succ r ih =>
    intro b hb
    simp only [bitsOf, List.mem_cons] at hb
    rcases hb with h | h
    · split at h <;> simp [h]
    · exact ih b h

theorem bitsOf_take (a len v : Nat) (h : a ≤ len) : (bitsOf len v).take a = bitsOf a (v / 2 ^ (len - a)) := by
  induction a generalizing len v with
  | zero => simp [bitsOf]
  | succ a ih =>
    obtain ⟨len, rfl⟩ : ∃ k, len = k + 1 := ⟨len - 1, by omega⟩
    simp only [bitsOf, List.take_succ_cons]
    rw [ih len v (by omega)]
    have e : len + 1 - (a + 1) = len - a := by omega
    rw [e]
    congr 2
    rw [Nat.div_div_eq_div_mul, ← Nat.pow_add]
    congr 3
    rw [show len - a + a = len by omega]

theorem bitsOf_inj (len a b : Nat) (ha : a < 2 ^ len) (hb : b < 2 ^ len) (h : bitsOf len a = bitsOf len b) :
    a = b := by
  have gen : ∀ len, bitsOf len a = bitsOf len b → a % 2 ^ len = b % 2 ^ len := by
    intro len
    induction len with
    | zero => intro _; omega
    | succ r ih =>
      intro h
      simp only [bitsOf, List.cons.injEq] at h
      have h1 := ih h.2
      have h2 : a / 2 ^ r % 2 = b / 2 ^ r % 2 := by
        have h2 := h.1
        have := Nat.mod_two_eq_zero_or_one (a / 2 ^ r)
        have := Nat.mod_two_eq_zero_or_one (b / 2 ^ r)
        split at h2 <;> split at h2 <;> first | omega | (exfalso; revert h2; decide)
      have e : ∀ x : Nat, x % 2 ^ (r + 1) = x % 2 ^ r + 2 ^ r * (x / 2 ^ r % 2) := by
        intro x; rw [Nat.pow_succ, Nat.mod_mul]
      rw [e, e, h1, h2]
  have := gen len h
  rwa [Nat.mod_eq_of_lt ha, Nat.mod_eq_of_lt hb] at this

/-! ### canonical codes and the Kraft sum -/

theorem mem_zipIdx_iff (L : List Nat) (l n : Nat) : (l, n) ∈ L.zipIdx ↔ L[n]? = some l := by
  constructor
  · intro h; exact (List.mem_zipIdx_iff_getElem? (x := (l, n))).1 h
  · intro h; exact (List.mem_zipIdx_iff_getElem? (x := (l, n))).2 h

/-- scaling a canonical code value -/
theorem canonCode_scale (L : List Nat) (n ln W : Nat) (hW : ln ≤ W) :
    sumIf (before n ln) (fun p => 2 ^ (W - p.1)) L.zipIdx = 2 ^ (W - ln) * canonCode L n ln := by
  unfold canonCode
  rw [← sumIf_mul]
  apply sumIf_congr
  · intro _ _; rfl
  · intro p _ hp
    rw [← Nat.pow_add]
    congr 1
    simp only [before, Bool.and_eq_true, Bool.or_eq_true, decide_eq_true_eq, beq_iff_eq] at hp
    omega

theorem canonCode_lt (L : List Nat) (n ln W : Nat) (hn : L[n]? = some ln) (h0 : ln ≠ 0) (hW : ∀ l ∈ L, l ≤ W)
    (hK : KraftOk W L) : canonCode L n ln < 2 ^ ln := by
  have hlW : ln ≤ W := hW ln (List.mem_of_getElem? hn)
  have h1 := sumIf_le_extra (before n ln) (fun p => p.1 != 0) (fun p => 2 ^ (W - p.1)) L.zipIdx (ln, n)
    ((mem_zipIdx_iff L ln n).2 hn) (by simp [h0]) (by simp [before])
    (by intro p _ hp; simp [before] at hp ⊢; exact hp.1)
  rw [canonCode_scale L n ln W hlW] at h1
  have h2 := sumIf_zipIdx (fun l => l != 0) (fun l => 2 ^ (W - l)) L 0
  rw [h2] at h1
  unfold KraftOk at hK
  have h3 : 2 ^ W = 2 ^ (W - ln) * 2 ^ ln := by rw [← Nat.pow_add]; congr 1; omega
  have h4 : 2 ^ (W - ln) * (canonCode L n ln + 1) ≤ 2 ^ (W - ln) * 2 ^ ln := by
    rw [Nat.mul_add, Nat.mul_one, ← h3]; simp only at h1; omega
  exact Nat.le_of_mul_le_mul_left h4 (Nat.pow_pos (by omega))

theorem canonCode_step (L : List Nat) (m lm n ln : Nat) (hm : L[m]? = some lm)
    (hb : before n ln (lm, m) = true) :
    2 ^ (ln - lm) * (canonCode L m lm + 1) ≤ canonCode L n ln := by
  simp only [before, Bool.and_eq_true, Bool.or_eq_true, decide_eq_true_eq, beq_iff_eq, bne_iff_ne] at hb
  have hle : lm ≤ ln := by omega
  have h1 := sumIf_le_extra (before m lm) (before n ln) (fun p => 2 ^ (ln - p.1)) L.zipIdx (lm, m)
    ((mem_zipIdx_iff L lm m).2 hm) (by simp [before]; omega) (by simp [before])
    (by intro p _ hp; simp only [before, Bool.and_eq_true, Bool.or_eq_true, decide_eq_true_eq, beq_iff_eq, bne_iff_ne] at hp ⊢; omega)
  rw [canonCode_scale L m lm ln hle] at h1
  rw [Nat.mul_add, Nat.mul_one]
  exact h1

/-! ### trees -/

/-- there is a leaf `v` at path `bs` -/
inductive Has : Node → List UInt8 → Nat → Prop where
  | leaf (v) : Has (.leaf v) [] v
  | left {c0 c1 bs v} : Has c0 bs v → Has (.branch c0 c1) (0 :: bs) v
  | right {c0 c1 bs v} : Has c1 bs v → Has (.branch c0 c1) (1 :: bs) v

/-- every branch has a leaf below it -/
inductive WF : Node → Prop where
  | empty : WF .empty
  | leaf (v) : WF (.leaf v)
  | branch {c0 c1} : WF c0 → WF c1 → (∃ bs v, Has (.branch c0 c1) bs v) → WF (.branch c0 c1)

theorem parseOne_has (t : Node) (bs : List UInt8) (v : Nat) (rest : List UInt8) (h : Has t bs v) :
    t.parseOne (bs ++ rest) = .ok v rest := by
  induction h with
  | leaf v => simp [Node.parseOne]
  | left _ ih => simp [Node.parseOne, ih]
  | right _ ih => simp [Node.parseOne, ih]

theorem parseOne_ok (t : Node) (s rest : List UInt8) (v : Nat) (h : t.parseOne s = .ok v rest) :
    ∃ bs, Has t bs v ∧ s = bs ++ rest := by
  induction t generalizing s with
  | empty => cases s <;> simp [Node.parseOne] at h
  | leaf w => simp only [Node.parseOne, PResult.ok.injEq] at h; obtain ⟨rfl, rfl⟩ := h; exact ⟨[], .leaf _, rfl⟩
  | branch c0 c1 ih0 ih1 =>
    cases s with
    | nil => simp [Node.parseOne] at h
    | cons b s =>
      simp only [Node.parseOne] at h
      by_cases c : b = 0
      · subst c; rw [if_pos rfl] at h
        obtain ⟨bs, h1, rfl⟩ := ih0 s h
        exact ⟨0 :: bs, .left h1, rfl⟩
      · rw [if_neg c] at h
        by_cases c' : b = 1
        · subst c'; rw [if_pos rfl] at h
          obtain ⟨bs, h1, rfl⟩ := ih1 s h
          exact ⟨1 :: bs, .right h1, rfl⟩
        · rw [if_neg c'] at h; cases h

def Bits (bs : List UInt8) : Prop := ∀ b ∈ bs, b = 0 ∨ b = 1

theorem insert_no_panic (t : Node) (bs : List UInt8) (v : Nat) (hb : Bits bs) : t.insert bs v ≠ .panic := by
  induction bs generalizing t with
  | nil => cases t <;> simp [Node.insert]
  | cons b bs ih =>
    have hb' : Bits bs := fun x hx => hb x (by simp [hx])
    have h01 := hb b (by simp)
    have key : ∀ t, ∃ r, Node.insert t bs v = .ok r := by
      intro t
      cases h : Node.insert t bs v with
      | ok r => exact ⟨r, rfl⟩
      | panic => exact absurd h (ih t hb')
    cases t with
    | leaf w => simp [Node.insert]
    | empty =>
      obtain ⟨r, hr⟩ := key .empty
      rcases h01 with rfl | rfl <;> cases r <;> simp [Node.insert, hr]
    | branch c0 c1 =>
      obtain ⟨r0, hr0⟩ := key c0
      obtain ⟨r1, hr1⟩ := key c1
      rcases h01 with rfl | rfl
      · cases r0 <;> simp [Node.insert, hr0]
      · cases r1 <;> simp [Node.insert, hr1]

theorem insert_has (t t' : Node) (bs : List UInt8) (v : Nat) (hw : WF t) (h : t.insert bs v = .ok (some t')) :
    WF t' ∧ ∀ b w, Has t' b w ↔ Has t b w ∨ (b = bs ∧ w = v) := by
  have empty_no : ∀ b w, ¬ Has .empty b w := by intro b w h; cases h
  induction bs generalizing t t' with
  | nil =>
    cases t with
    | empty =>
      simp only [Node.insert, Panicky.ok.injEq, Option.some.injEq] at h
      subst h
      refine ⟨.leaf v, fun b w => ⟨fun h => ?_, fun h => ?_⟩⟩
      · cases h; exact .inr ⟨rfl, rfl⟩
      · rcases h with h | ⟨rfl, rfl⟩
        · cases h
        · exact .leaf _
    | leaf w => simp [Node.insert] at h
    | branch c0 c1 => simp [Node.insert] at h
  | cons b bs ih =>
    cases t with
    | leaf w => simp [Node.insert] at h
    | empty =>
      simp only [Node.insert] at h
      by_cases c0 : b = 0
      · subst c0; rw [if_pos rfl] at h
        cases hi : Node.insert .empty bs v with
        | panic => rw [hi] at h; cases h
        | ok r =>
          rw [hi] at h
          cases r with
          | none => cases h
          | some c =>
            simp only [Panicky.ok.injEq, Option.some.injEq] at h
            subst h
            obtain ⟨hw', hh⟩ := ih .empty c .empty hi
            refine ⟨.branch hw' .empty ⟨0 :: bs, v, .left ((hh bs v).2 (.inr ⟨rfl, rfl⟩))⟩, fun b w => ⟨?_, ?_⟩⟩
            · intro h
              cases h with
              | left h =>
                rcases (hh _ _).1 h with h | ⟨rfl, rfl⟩
                · cases h
                · exact .inr ⟨rfl, rfl⟩
              | right h => cases h
            · rintro (h | ⟨rfl, rfl⟩)
              · cases h
              · exact .left ((hh _ _).2 (.inr ⟨rfl, rfl⟩))
      · rw [if_neg c0] at h
        by_cases c1 : b = 1
        · subst c1; rw [if_pos rfl] at h
          cases hi : Node.insert .empty bs v with
          | panic => rw [hi] at h; cases h
          | ok r =>
            rw [hi] at h
            cases r with
            | none => cases h
            | some c =>
              simp only [Panicky.ok.injEq, Option.some.injEq] at h
              subst h
              obtain ⟨hw', hh⟩ := ih .empty c .empty hi
              refine ⟨.branch .empty hw' ⟨1 :: bs, v, .right ((hh bs v).2 (.inr ⟨rfl, rfl⟩))⟩, fun b w => ⟨?_, ?_⟩⟩
              · intro h
                cases h with
                | right h =>
                  rcases (hh _ _).1 h with h | ⟨rfl, rfl⟩
                  · cases h
                  · exact .inr ⟨rfl, rfl⟩
                | left h => cases h
              · rintro (h | ⟨rfl, rfl⟩)
                · cases h
                · exact .right ((hh _ _).2 (.inr ⟨rfl, rfl⟩))
        · rw [if_neg c1] at h; cases h
    | branch d0 d1 =>
      have hw0 : WF d0 := by cases hw; assumption
      have hw1 : WF d1 := by cases hw; assumption
      simp only [Node.insert] at h
      by_cases c0 : b = 0
      · subst c0; rw [if_pos rfl] at h
        cases hi : Node.insert d0 bs v with
        | panic => rw [hi] at h; cases h
        | ok r =>
          rw [hi] at h
          cases r with
          | none => cases h
          | some c =>
            simp only [Panicky.ok.injEq, Option.some.injEq] at h
            subst h
            obtain ⟨hw', hh⟩ := ih d0 c hw0 hi
            refine ⟨.branch hw' hw1 ⟨0 :: bs, v, .left ((hh bs v).2 (.inr ⟨rfl, rfl⟩))⟩, fun b w => ⟨?_, ?_⟩⟩
            · intro h
              cases h with
              | left h =>
                rcases (hh _ _).1 h with h | ⟨rfl, rfl⟩
                · exact .inl (.left h)
                · exact .inr ⟨rfl, rfl⟩
              | right h => exact .inl (.right h)
            · rintro (h | ⟨rfl, rfl⟩)
              · cases h with
                | left h => exact .left ((hh _ _).2 (.inl h))
                | right h => exact .right h
              · exact .left ((hh _ _).2 (.inr ⟨rfl, rfl⟩))
      · rw [if_neg c0] at h
        by_cases c1 : b = 1
        · subst c1; rw [if_pos rfl] at h
          cases hi : Node.insert d1 bs v with
          | panic => rw [hi] at h; cases h
          | ok r =>
            rw [hi] at h
            cases r with
            | none => cases h
            | some c =>
              simp only [Panicky.ok.injEq, Option.some.injEq] at h
              subst h
              obtain ⟨hw', hh⟩ := ih d1 c hw1 hi
              refine ⟨.branch hw0 hw' ⟨1 :: bs, v, .right ((hh bs v).2 (.inr ⟨rfl, rfl⟩))⟩, fun b w => ⟨?_, ?_⟩⟩
              · intro h
                cases h with
                | right h =>
                  rcases (hh _ _).1 h with h | ⟨rfl, rfl⟩
                  · exact .inl (.right h)
                  · exact .inr ⟨rfl, rfl⟩
                | left h => exact .inl (.left h)
              · rintro (h | ⟨rfl, rfl⟩)
                · cases h with
                  | right h => exact .right ((hh _ _).2 (.inl h))
                  | left h => exact .left h
                · exact .right ((hh _ _).2 (.inr ⟨rfl, rfl⟩))
        · rw [if_neg c1] at h; cases h

/-- A failed insertion collides with a leaf already there. -/
theorem insert_none (t : Node) (bs : List UInt8) (v : Nat) (hw : WF t) (h : t.insert bs v = .ok none) :
    ∃ b w, Has t b w ∧ (b <+: bs ∨ bs <+: b) := by
  induction bs generalizing t with
  | nil =>
    cases t with
    | empty => simp [Node.insert] at h
    | leaf w => exact ⟨[], w, .leaf w, .inl (List.prefix_refl _)⟩
    | branch c0 c1 =>
      cases hw with
      | branch _ _ hx =>
        obtain ⟨b, w, hb⟩ := hx
        exact ⟨b, w, hb, .inr (List.nil_prefix)⟩
  | cons b bs ih =>
    cases t with
    | leaf w => exact ⟨[], w, .leaf w, .inl (List.nil_prefix)⟩
    | empty =>
      exfalso
      have aux : ∀ bs, Node.insert .empty bs v ≠ .ok none := by
        intro bs
        induction bs with
        | nil => simp [Node.insert]
        | cons b bs ih =>
          intro h
          simp only [Node.insert] at h
          cases hi : Node.insert .empty bs v with
          | panic => rw [hi] at h; simp only [] at h; split at h <;> (try split at h) <;> cases h
          | ok r =>
            cases r with
            | none => exact absurd hi ih
            | some c => rw [hi] at h; simp only [] at h; split at h <;> (try split at h) <;> cases h
      exact aux _ h
    | branch d0 d1 =>
      have hw0 : WF d0 := by cases hw; assumption
      have hw1 : WF d1 := by cases hw; assumption
      simp only [Node.insert] at h
      by_cases c0 : b = 0
      · subst c0; rw [if_pos rfl] at h
        cases hi : Node.insert d0 bs v with
        | panic => rw [hi] at h; cases h
        | ok r =>
          rw [hi] at h
          cases r with
          | some c => cases h
          | none =>
            obtain ⟨b', w, h1, h2⟩ := ih d0 hw0 hi
            refine ⟨0 :: b', w, .left h1, ?_⟩
            simpa using h2
      · rw [if_neg c0] at h
        by_cases c1 : b = 1
        · subst c1; rw [if_pos rfl] at h
          cases hi : Node.insert d1 bs v with
          | panic => rw [hi] at h; cases h
          | ok r =>
            rw [hi] at h
            cases r with
            | some c => cases h
            | none =>
              obtain ⟨b', w, h1, h2⟩ := ih d1 hw1 hi
              refine ⟨1 :: b', w, .right h1, ?_⟩
              simpa using h2
        · rw [if_neg c1] at h; cases h

/-- code space used by the leaves of a tree, in units of `2^-k` -/
def weight : Nat → Node → Nat
  | _, .empty => 0
  | k, .leaf _ => 2 ^ k
  | 0, .branch _ _ => 0
  | k + 1, .branch c0 c1 => weight k c0 + weight k c1

theorem weight_le (k : Nat) (t : Node) : weight k t ≤ 2 ^ k := by
  induction t generalizing k with
  | empty => simp [weight]
  | leaf v => simp [weight]
  | branch c0 c1 ih0 ih1 =>
    cases k with
    | zero => simp [weight]
    | succ k =>
      have := ih0 k; have := ih1 k
      simp only [weight, Nat.pow_succ]; omega

theorem weight_insert (k : Nat) (t t' : Node) (bs : List UInt8) (v : Nat) (hk : bs.length ≤ k)
    (h : t.insert bs v = .ok (some t')) : weight k t' = weight k t + 2 ^ (k - bs.length) := by
  induction bs generalizing k t t' with
  | nil =>
    cases t with
    | empty =>
      simp only [Node.insert, Panicky.ok.injEq, Option.some.injEq] at h
      subst h; simp [weight]
    | leaf w => simp [Node.insert] at h
    | branch c0 c1 => simp [Node.insert] at h
  | cons b bs ih =>
    obtain ⟨k, rfl⟩ : ∃ j, k = j + 1 := ⟨k - 1, by simp at hk; omega⟩
    have hk' : bs.length ≤ k := by simpa using hk
    have e : k + 1 - (b :: bs).length = k - bs.length := by simp
    rw [e]
    cases t with
    | leaf w => simp [Node.insert] at h
    | empty =>
      simp only [Node.insert] at h
      cases hi : Node.insert .empty bs v with
      | panic => rw [hi] at h; simp only [] at h; split at h <;> (try split at h) <;> cases h
      | ok r =>
        cases r with
        | none => rw [hi] at h; simp only [] at h; split at h <;> (try split at h) <;> cases h
        | some c =>
          have := ih k .empty c hk' hi
          rw [hi] at h
          simp only [] at h
          split at h
          · cases h; simp only [weight] at this ⊢; omega
          · split at h
            · cases h; simp only [weight] at this ⊢; omega
            · cases h
    | branch d0 d1 =>
      simp only [Node.insert] at h
      split at h
      · cases hi : Node.insert d0 bs v with
        | panic => rw [hi] at h; cases h
        | ok r =>
          cases r with
          | none => rw [hi] at h; cases h
          | some c =>
            have := ih k d0 c hk' hi
            rw [hi] at h
            cases h; simp only [weight] at this ⊢; omega
      · split at h
        · cases hi : Node.insert d1 bs v with
          | panic => rw [hi] at h; cases h
          | ok r =>
            cases r with
            | none => rw [hi] at h; cases h
            | some c =>
              have := ih k d1 c hk' hi
              rw [hi] at h
              cases h; simp only [weight] at this ⊢; omega
        · cases h

/-- inserting a table of codewords one after the other -/
def insertAll : Node → List (List UInt8 × Nat) → Panicky (Option Node)
  | t, [] => .ok (some t)
  | t, (bs, v) :: es =>
    match Node.insert t bs v with
    | .panic => .panic
    | .ok none => .ok none
    | .ok (some t') => insertAll t' es

end Huffman
end Doodle
