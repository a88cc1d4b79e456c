import Verif.Lemmas.Huffman

/-! Properties C30 (canonical prefix codes) and C31 (interpreter and runtime use the same code).

`Small L`: at least one symbol, at most 65536 symbols, every length at most 47 (DEFLATE uses 15);
within these sizes no word operation of the construction wraps. -/

namespace Doodle
namespace Huffman

/-! ### the loops over symbols -/

theorem codesLoop_spec (L : List Nat) (hs : Small L) (m : Nat) (hm : ∀ l ∈ L, l ≤ m) (pre post next : List Nat)
    (hL : L = pre ++ post) (hlen : next.length = m + 1)
    (hnext : ∀ b, 1 ≤ b → b ≤ m → next[b]? = some (base L b + pre.count b)) :
    codesLoop pre.length next post = .ok ((post.zipIdx pre.length).filterMap fun p =>
      if p.1 = 0 then none else some (bitsOf p.1 (canonCode L p.2 p.1), p.2)) := by
  induction post generalizing pre next with
  | nil => rfl
  | cons l ls ih =>
    have hmem : l ∈ L := by rw [hL]; simp
    have hl := hm l hmem
    have hl47 := hs.2.2 l hmem
    have hn : pre.length < L.length := by rw [hL]; simp
    have hpl : (pre ++ [l]).length = pre.length + 1 := by simp
    simp only [codesLoop, List.zipIdx_cons, List.filterMap_cons]
    by_cases c : l = 0
    · subst c
      rw [if_neg (by simp)]
      have := ih (pre ++ [0]) next (by simp [hL]) hlen (by
        intro b h1 h2
        rw [hnext b h1 h2, List.count_append]
        have : ¬ (0 = b) := by omega
        simp [List.count_cons, this])
      rw [hpl] at this
      rw [this]; simp
    · rw [if_pos c]
      have hld := load_ok.2 (hnext l (by omega) hl)
      have hcode : base L l + pre.count l = canonCode L pre.length l := by
        rw [canonCode_eq L _ _ c, hL, List.take_left' rfl]
      have hlt : base L l + pre.count l + 1 < usizeCard := by
        have h1 := base_bound L hs l hl47
        have h2 : pre.count l ≤ L.count l := by rw [hL, List.count_append]; omega
        have : usizeCard / 2 + usizeCard / 2 = usizeCard := by decide +kernel
        omega
      have := ih (pre ++ [l]) (next.set l (base L l + pre.count l + 1)) (by simp [hL]) (by simpa using hlen) (by
        intro b h1 h2
        rw [List.getElem?_set, List.count_append]
        by_cases cb : l = b
        · subst cb; simp; omega
        · rw [if_neg cb, hnext b h1 h2]; simp [List.count_cons, cb])
      rw [hpl] at this
      rw [hcode] at hld hlt
      simp only [hcode] at this
      simp only [hld, bitRange_spec l _ (by omega), if_pos (show pre.length < 65536 by have := hs.2.1; omega),
        if_pos hlt, store_ok (show l < next.length by omega), this, if_neg c]

theorem driverLoop_spec (L : List Nat) (hs : Small L) (m : Nat) (hm : ∀ l ∈ L, l ≤ m) (pre post next : List Nat)
    (hL : L = pre ++ post) (hlen : next.length = m + 1)
    (hnext : ∀ b, 1 ≤ b → b ≤ m → next[b]? = some (base L b + pre.count b)) (t : Node) :
    driverLoop t pre.length next post = insertAll t ((post.zipIdx pre.length).filterMap fun p =>
      if p.1 = 0 then none else some (bitsOf p.1 (canonCode L p.2 p.1), p.2)) := by
  induction post generalizing pre next t with
  | nil => rfl
  | cons l ls ih =>
    have hmem : l ∈ L := by rw [hL]; simp
    have hl := hm l hmem
    have hl47 := hs.2.2 l hmem
    have hn : pre.length < L.length := by rw [hL]; simp
    have hpl : (pre ++ [l]).length = pre.length + 1 := by simp
    simp only [driverLoop, List.zipIdx_cons, List.filterMap_cons]
    by_cases c : l = 0
    · subst c
      rw [if_neg (by simp)]
      have := ih (pre ++ [0]) next (by simp [hL]) hlen (by
        intro b h1 h2
        rw [hnext b h1 h2, List.count_append]
        have : ¬ (0 = b) := by omega
        simp [List.count_cons, this]) t
      rw [hpl] at this
      rw [this]; simp
    · rw [if_pos c]
      have hld := load_ok.2 (hnext l (by omega) hl)
      have hcode : base L l + pre.count l = canonCode L pre.length l := by
        rw [canonCode_eq L _ _ c, hL, List.take_left' rfl]
      have hlt : base L l + pre.count l + 1 < usizeCard := by
        have h1 := base_bound L hs l hl47
        have h2 : pre.count l ≤ L.count l := by rw [hL, List.count_append]; omega
        have : usizeCard / 2 + usizeCard / 2 = usizeCard := by decide +kernel
        omega
      have := ih (pre ++ [l]) (next.set l (base L l + pre.count l + 1)) (by simp [hL]) (by simpa using hlen) (by
        intro b h1 h2
        rw [List.getElem?_set, List.count_append]
        by_cases cb : l = b
        · subst cb; simp; omega
        · rw [if_neg cb, hnext b h1 h2]; simp [List.count_cons, cb])
      rw [hpl] at this
      rw [hcode] at hld hlt
      simp only [hcode] at this
      simp only [hld, bitRange_spec l _ (show l ≤ 64 by omega),
        if_pos (show pre.length < 65536 by have := hs.2.1; omega),
        if_pos hlt, store_ok (show l < next.length by omega), this, if_neg c, insertAll]
      rfl

theorem makeDecoder_eq (L : List Nat) (hs : Small L) : makeDecoder L = insertAll .empty (canonTable L) := by
  obtain ⟨next, m, h1, h2, h3, h4⟩ := nextCodes_spec L hs
  unfold makeDecoder
  rw [h1]
  exact driverLoop_spec L hs m h3 [] L next rfl h2 (by simpa using h4) .empty

theorem mem_canonTable (L : List Nat) (bs : List UInt8) (n : Nat) :
    (bs, n) ∈ canonTable L ↔ ∃ l, L[n]? = some l ∧ l ≠ 0 ∧ bs = bitsOf l (canonCode L n l) := by
  unfold canonTable
  rw [List.mem_filterMap]
  constructor
  · rintro ⟨⟨l, k⟩, h1, h2⟩
    by_cases c : l = 0
    · simp [c] at h2
    · simp only [if_neg c, Option.some.injEq, Prod.mk.injEq] at h2
      obtain ⟨h2, rfl⟩ := h2
      exact ⟨l, (mem_zipIdx_iff L l k).1 h1, c, h2.symm⟩
  · rintro ⟨l, h1, h2, rfl⟩
    exact ⟨(l, n), (mem_zipIdx_iff L l n).2 h1, by simp [h2]⟩

/-! ## C30 -/

/-- The interpreter's table is the canonical code table: every symbol of non-zero length `l`, in symbol
order, with the `l`-bit big-endian rendering of its canonical code value. -/
theorem C30_codes_canonical (L : List Nat) (hs : Small L) : makeCodes L = .ok (canonTable L) := by
  obtain ⟨next, m, h1, h2, h3, h4⟩ := nextCodes_spec L hs
  unfold makeCodes
  rw [h1]
  exact codesLoop_spec L hs m h3 [] L next rfl h2 (by simpa using h4)

/-- What "canonical" means (RFC 1951): the first symbol in (length, symbol) order has code 0... -/
theorem C30_first (L : List Nat) (n l : Nat) (hfirst : ∀ m lm, L[m]? = some lm → before n l (lm, m) = false) :
    canonCode L n l = 0 := by
  have : canonCode L n l ≤ sumIf (fun _ => false) (fun p : Nat × Nat => 2 ^ (l - p.1)) L.zipIdx := by
    apply sumIf_le_of
    · rintro ⟨lm, m⟩ hmem hb
      rw [hfirst m lm ((mem_zipIdx_iff L lm m).1 hmem)] at hb; cases hb
    · intros; exact Nat.le_refl _
  have h0 : ∀ (l' : List (Nat × Nat)), sumIf (fun _ => false) (fun p : Nat × Nat => 2 ^ (l - p.1)) l' = 0 := by
    intro l'; induction l' with
    | nil => rfl
    | cons x xs ih => simp [sumIf, ih]
  rw [h0] at this; omega

/-- ... and each next symbol in that order has the previous code plus one, extended with zeros. -/
theorem C30_next (L : List Nat) (m lm n ln : Nat) (hm : L[m]? = some lm) (hb : before n ln (lm, m) = true)
    (hadj : ∀ k lk, L[k]? = some lk → before n ln (lk, k) = true → (lk, k) = (lm, m) ∨ before m lm (lk, k) = true) :
    canonCode L n ln = 2 ^ (ln - lm) * (canonCode L m lm + 1) := by
  apply Nat.le_antisymm _ (canonCode_step L m lm n ln hm hb)
  simp only [before, Bool.and_eq_true, Bool.or_eq_true, decide_eq_true_eq, beq_iff_eq, bne_iff_ne] at hb
  have hle : lm ≤ ln := by omega
  -- split the sum for `n` at symbol `m`
  have key : ∀ (l : List Nat) (k : Nat), (∀ i, (hi : i < l.length) → L[k + i]? = some l[i]) →
      sumIf (before n ln) (fun p => 2 ^ (ln - p.1)) (l.zipIdx k) ≤
        sumIf (before m lm) (fun p => 2 ^ (ln - p.1)) (l.zipIdx k) +
          (if k ≤ m ∧ m < k + l.length then 2 ^ (ln - lm) else 0) := by
    intro l
    induction l with
    | nil => intro k _; simp [sumIf]
    | cons x xs ih =>
      intro k hk
      have h0 := hk 0 (by simp)
      simp only [Nat.add_zero, List.getElem_cons_zero] at h0
      have ih' := ih (k + 1) (by
        intro i hi
        have := hk (i + 1) (by simpa using hi)
        rw [show k + 1 + i = k + (i + 1) by omega, this]; rfl)
      simp only [List.zipIdx_cons, sumIf, List.length_cons]
      by_cases cb : before n ln (x, k) = true
      · rw [if_pos cb]
        rcases hadj k x h0 cb with h | h
        · simp only [Prod.mk.injEq] at h
          obtain ⟨rfl, rfl⟩ := h
          rw [if_neg (show ¬ (k + 1 ≤ k ∧ k < k + 1 + xs.length) by omega)] at ih'
          rw [if_pos (show k ≤ k ∧ k < k + (xs.length + 1) by omega)]
          omega
        · rw [if_pos h]
          have : (if k + 1 ≤ m ∧ m < k + 1 + xs.length then 2 ^ (ln - lm) else 0) ≤
            (if k ≤ m ∧ m < k + (xs.length + 1) then 2 ^ (ln - lm) else 0) := by
            by_cases c : k + 1 ≤ m ∧ m < k + 1 + xs.length
            · rw [if_pos c, if_pos (by omega)]; exact Nat.le_refl _
            · rw [if_neg c]; omega
          omega
      · rw [if_neg cb]
        have : (if k + 1 ≤ m ∧ m < k + 1 + xs.length then 2 ^ (ln - lm) else 0) ≤
            (if k ≤ m ∧ m < k + (xs.length + 1) then 2 ^ (ln - lm) else 0) := by
            by_cases c : k + 1 ≤ m ∧ m < k + 1 + xs.length
            · rw [if_pos c, if_pos (by omega)]; exact Nat.le_refl _
            · rw [if_neg c]; omega
        omega
  have h1 := key L 0 (by intro i hi; simp [hi])
  have hmL : m < L.length := by
    rcases List.getElem?_eq_some_iff.1 hm with ⟨h, _⟩; exact h
  rw [if_pos ⟨by omega, by omega⟩, canonCode_scale L m lm ln hle] at h1
  rw [Nat.mul_add, Nat.mul_one]
  exact h1

/-- When the lengths do not over-subscribe the code space, no codeword is a prefix of another. -/
theorem C30_prefix_free (L : List Nat) (W : Nat) (hW : ∀ l ∈ L, l ≤ W) (hK : KraftOk W L)
    (b1 b2 : List UInt8) (n1 n2 : Nat) (h1 : (b1, n1) ∈ canonTable L) (h2 : (b2, n2) ∈ canonTable L)
    (hp : b1 <+: b2) : n1 = n2 ∧ b1 = b2 := by
  rw [mem_canonTable] at h1 h2
  obtain ⟨l1, g1, z1, rfl⟩ := h1
  obtain ⟨l2, g2, z2, rfl⟩ := h2
  have hle : l1 ≤ l2 := by simpa [bitsOf_length] using hp.length_le
  have lt1 := canonCode_lt L n1 l1 W g1 z1 hW hK
  have lt2 := canonCode_lt L n2 l2 W g2 z2 hW hK
  have ht := List.prefix_iff_eq_take.1 hp
  rw [bitsOf_length, bitsOf_take _ _ _ hle] at ht
  have hdiv : canonCode L n2 l2 / 2 ^ (l2 - l1) < 2 ^ l1 := by
    rw [Nat.div_lt_iff_lt_mul (Nat.pow_pos (by omega)), ← Nat.pow_add]
    rwa [show l1 + (l2 - l1) = l2 by omega]
  have heq := bitsOf_inj l1 _ _ lt1 hdiv ht
  by_cases hn : n1 = n2
  · subst hn
    rw [g1] at g2; cases g2
    exact ⟨rfl, rfl⟩
  · exfalso
    by_cases hb : before n2 l2 (l1, n1) = true
    · have := canonCode_step L n1 l1 n2 l2 g1 hb
      have h3 : canonCode L n1 l1 + 1 ≤ canonCode L n2 l2 / 2 ^ (l2 - l1) := by
        rw [Nat.le_div_iff_mul_le (Nat.pow_pos (by omega)), Nat.mul_comm]; exact this
      omega
    · have hb' : before n1 l1 (l2, n2) = true := by
        simp only [before, Bool.and_eq_true, Bool.or_eq_true, decide_eq_true_eq, beq_iff_eq, bne_iff_ne] at hb ⊢
        omega
      have hl : l1 = l2 := by
        simp only [before, Bool.and_eq_true, Bool.or_eq_true, decide_eq_true_eq, beq_iff_eq, bne_iff_ne] at hb'
        omega
      subst hl
      have := canonCode_step L n2 l1 n1 l1 g2 hb'
      simp at this heq
      omega

theorem insertAll_ok (ts : List (List UInt8 × Nat)) (t : Node) (hw : WF t)
    (hbits : ∀ e ∈ ts, Bits e.1) (hlen : True)
    (hfree : ∀ e ∈ ts, ∀ b w, Has t b w → ¬ (b <+: e.1 ∨ e.1 <+: b))
    (hpair : ts.Pairwise (fun e f => ¬ (e.1 <+: f.1 ∨ f.1 <+: e.1))) :
    ∃ t', insertAll t ts = .ok (some t') ∧ ∀ b w, Has t' b w ↔ Has t b w ∨ (b, w) ∈ ts := by
  induction ts generalizing t with
  | nil => exact ⟨t, rfl, by simp⟩
  | cons e ts ih =>
    obtain ⟨bs, v⟩ := e
    cases hi : Node.insert t bs v with
    | panic => exact absurd hi (insert_no_panic t bs v (hbits (bs, v) (by simp)))
    | ok r =>
      cases r with
      | none =>
        obtain ⟨b, w, h1, h2⟩ := insert_none t bs v hw hi
        exact absurd h2 (hfree (bs, v) (by simp) b w h1)
      | some t1 =>
        obtain ⟨hw1, hh⟩ := insert_has t t1 bs v hw hi
        rw [List.pairwise_cons] at hpair
        obtain ⟨t', h1, h2⟩ := ih t1 hw1 (fun e he => hbits e (by simp [he]))
          (by
            intro e he b w hb
            rcases (hh b w).1 hb with h | ⟨rfl, rfl⟩
            · exact hfree e (by simp [he]) b w h
            · exact hpair.1 e he) hpair.2
        refine ⟨t', by simp only [insertAll, hi, h1], ?_⟩
        intro b w
        rw [h2, hh]
        simp [or_assoc]

theorem insertAll_has (ts : List (List UInt8 × Nat)) (t t' : Node) (hw : WF t)
    (h : insertAll t ts = .ok (some t')) : ∀ b w, Has t' b w ↔ Has t b w ∨ (b, w) ∈ ts := by
  induction ts generalizing t with
  | nil => simp only [insertAll, Panicky.ok.injEq, Option.some.injEq] at h; subst h; simp
  | cons e ts ih =>
    obtain ⟨bs, v⟩ := e
    simp only [insertAll] at h
    cases hi : Node.insert t bs v with
    | panic => rw [hi] at h; cases h
    | ok r =>
      rw [hi] at h
      cases r with
      | none => cases h
      | some t1 =>
        obtain ⟨hw1, hh⟩ := insert_has t t1 bs v hw hi
        intro b w
        rw [ih t1 hw1 h, hh]; simp [or_assoc]

theorem insertAll_no_panic (ts : List (List UInt8 × Nat)) (t : Node) (hbits : ∀ e ∈ ts, Bits e.1) :
    insertAll t ts ≠ .panic := by
  induction ts generalizing t with
  | nil => simp [insertAll]
  | cons e ts ih =>
    obtain ⟨bs, v⟩ := e
    simp only [insertAll]
    cases hi : Node.insert t bs v with
    | panic => exact absurd hi (insert_no_panic t bs v (hbits (bs, v) (by simp)))
    | ok r =>
      cases r with
      | none => simp
      | some t1 => exact ih t1 (fun e he => hbits e (by simp [he]))

theorem insertAll_weight (W : Nat) (ts : List (List UInt8 × Nat)) (t t' : Node) (hW : ∀ e ∈ ts, e.1.length ≤ W)
    (h : insertAll t ts = .ok (some t')) :
    weight W t' = weight W t + sumIf (fun _ => true) (fun e => 2 ^ (W - e.1.length)) ts := by
  induction ts generalizing t with
  | nil => simp only [insertAll, Panicky.ok.injEq, Option.some.injEq] at h; subst h; simp [sumIf]
  | cons e ts ih =>
    obtain ⟨bs, v⟩ := e
    simp only [insertAll] at h
    cases hi : Node.insert t bs v with
    | panic => rw [hi] at h; cases h
    | ok r =>
      rw [hi] at h
      cases r with
      | none => cases h
      | some t1 =>
        have h1 := weight_insert W t t1 bs v (hW (bs, v) (by simp)) hi
        have h2 := ih t1 (fun e he => hW e (by simp [he])) h
        simp only [sumIf, if_true]; omega

theorem canonTable_bits (L : List Nat) : ∀ e ∈ canonTable L, Bits e.1 := by
  rintro ⟨bs, n⟩ he
  obtain ⟨l, _, _, rfl⟩ := (mem_canonTable L bs n).1 he
  exact bitsOf_bits _ _

theorem canonTable_sum (L : List Nat) (W : Nat) :
    sumIf (fun _ => true) (fun e : List UInt8 × Nat => 2 ^ (W - e.1.length)) (canonTable L) =
      sumIf (fun l => l != 0) (fun l => 2 ^ (W - l)) L := by
  unfold canonTable
  have : ∀ (l : List Nat) (k : Nat), sumIf (fun _ => true) (fun e : List UInt8 × Nat => 2 ^ (W - e.1.length))
      ((l.zipIdx k).filterMap fun p => if p.1 = 0 then none else some (bitsOf p.1 (canonCode L p.2 p.1), p.2)) =
      sumIf (fun l => l != 0) (fun l => 2 ^ (W - l)) l := by
    intro l
    induction l with
    | nil => intro k; rfl
    | cons x xs ih =>
      intro k
      simp only [List.zipIdx_cons, List.filterMap_cons, sumIf]
      by_cases c : x = 0
      · simp [c, ih]
      · simp [c, sumIf, ih, bitsOf_length]
  exact this L 0

theorem canonTable_symbols (L : List Nat) : (canonTable L).Pairwise (fun e f => e.2 ≠ f.2) := by
  unfold canonTable
  have : ∀ (l : List Nat) (k : Nat), ((l.zipIdx k).filterMap fun p => if p.1 = 0 then none else
      some (bitsOf p.1 (canonCode L p.2 p.1), p.2)).Pairwise (fun e f => e.2 ≠ f.2) := by
    intro l
    induction l with
    | nil => intro k; simp
    | cons x xs ih =>
      intro k
      simp only [List.zipIdx_cons, List.filterMap_cons]
      by_cases c : x = 0
      · simp only [c, if_true]; exact ih (k + 1)
      · simp only [if_neg c, List.pairwise_cons]
        refine ⟨?_, ih (k + 1)⟩
        rintro ⟨bs, n⟩ he
        rw [List.mem_filterMap] at he
        obtain ⟨⟨y, j⟩, hy, he⟩ := he
        have hj := (List.mem_zipIdx hy).1
        by_cases cy : y = 0
        · simp [cy] at he
        · simp only [if_neg cy, Option.some.injEq, Prod.mk.injEq] at he
          simp; omega
  exact this L 0

theorem canonTable_pairwise (L : List Nat) (W : Nat) (hW : ∀ l ∈ L, l ≤ W) (hK : KraftOk W L) :
    (canonTable L).Pairwise (fun e f => ¬ (e.1 <+: f.1 ∨ f.1 <+: e.1)) := by
  refine List.Pairwise.imp_of_mem ?_ (canonTable_symbols L)
  rintro ⟨b1, n1⟩ ⟨b2, n2⟩ h1 h2 hne hp
  rcases hp with hp | hp
  · exact hne (C30_prefix_free L W hW hK b1 b2 n1 n2 h1 h2 hp).1
  · exact hne (C30_prefix_free L W hW hK b2 b1 n2 n1 h2 h1 hp).1.symm

/-- The runtime refuses a table exactly when it over-subscribes the code space, with an ordinary error
(never a panic). -/
theorem C30_construct (L : List Nat) (hs : Small L) (W : Nat) (hW : ∀ l ∈ L, l ≤ W) :
    (KraftOk W L ↔ ∃ t, makeDecoder L = .ok (some t)) ∧ (¬ KraftOk W L ↔ makeDecoder L = .ok none) := by
  rw [makeDecoder_eq L hs]
  have fwd : KraftOk W L → ∃ t, insertAll .empty (canonTable L) = .ok (some t) := by
    intro hK
    obtain ⟨t, h, _⟩ := insertAll_ok (canonTable L) .empty .empty (canonTable_bits L) trivial
      (by intro e _ b w h; cases h) (canonTable_pairwise L W hW hK)
    exact ⟨t, h⟩
  have bwd : (∃ t, insertAll .empty (canonTable L) = .ok (some t)) → KraftOk W L := by
    rintro ⟨t, h⟩
    have hlen : ∀ e ∈ canonTable L, e.1.length ≤ W := by
      rintro ⟨bs, n⟩ he
      obtain ⟨l, g, _, rfl⟩ := (mem_canonTable L bs n).1 he
      rw [bitsOf_length]; exact hW l (List.mem_of_getElem? g)
    have := insertAll_weight W _ _ _ hlen h
    rw [canonTable_sum] at this
    have hle := weight_le W t
    unfold KraftOk
    simp only [weight] at this
    omega
  refine ⟨⟨fwd, bwd⟩, ?_⟩
  cases h : insertAll .empty (canonTable L) with
  | panic => exact absurd h (insertAll_no_panic _ _ (canonTable_bits L))
  | ok r =>
    cases r with
    | none =>
      refine ⟨fun _ => rfl, fun _ hK => ?_⟩
      obtain ⟨t, ht⟩ := fwd hK
      rw [h] at ht; cases ht
    | some t => exact ⟨fun hn => absurd (bwd ⟨t, h⟩) hn, fun hn => by cases hn⟩

/-- Decoding a codeword yields its symbol and leaves exactly the remaining bits; and nothing else
decodes: a successful decode consumed exactly one codeword. -/
theorem C30_decode (L : List Nat) (hs : Small L) (t : Node) (ht : makeDecoder L = .ok (some t))
    (s rest : List UInt8) (n : Nat) :
    t.parseOne s = .ok n rest ↔
      ∃ l, L[n]? = some l ∧ l ≠ 0 ∧ s = bitsOf l (canonCode L n l) ++ rest := by
  rw [makeDecoder_eq L hs] at ht
  have hh := insertAll_has _ _ _ .empty ht
  have empty_no : ∀ b w, ¬ Has .empty b w := by intro b w h; cases h
  constructor
  · intro h
    obtain ⟨bs, h1, rfl⟩ := parseOne_ok t s rest n h
    rcases (hh bs n).1 h1 with h | h
    · exact absurd h (empty_no _ _)
    · obtain ⟨l, g, z, rfl⟩ := (mem_canonTable L bs n).1 h
      exact ⟨l, g, z, rfl⟩
  · rintro ⟨l, g, z, rfl⟩
    exact parseOne_has t _ n rest ((hh _ _).2 (.inr ((mem_canonTable L _ n).2 ⟨l, g, z, rfl⟩)))

/-- A table with no symbols at all is a panic in both back ends, not an error. -/
theorem C30_empty_panics : makeDecoder [] = .panic ∧ makeCodes [] = .panic := by decide

/-- Non-vacuity: the RFC 1951 example (lengths 3,3,3,3,3,2,4,4). -/
example : Small [3, 3, 3, 3, 3, 2, 4, 4] ∧ KraftOk 4 [3, 3, 3, 3, 3, 2, 4, 4] := by
  refine ⟨⟨by simp, by simp, by simp⟩, ?_⟩
  unfold KraftOk; decide
example : canonTable [3, 3, 3, 3, 3, 2, 4, 4] =
  [([0,1,0],0), ([0,1,1],1), ([1,0,0],2), ([1,0,1],3), ([1,1,0],4), ([0,0],5), ([1,1,1,0],6), ([1,1,1,1],7)] := by
  decide

/-! ## C31 -/

/-- For every table the runtime accepts, and every stream: the interpreter's union has an alternative
matching a prefix of the stream (yielding `n`, leaving `rest`) iff the runtime decoder yields `n` and
leaves `rest`. -/
theorem C31_agree (L : List Nat) (values : Option (List Nat)) (L' : List Nat)
    (hr : reorder L values = .ok L') (hs : Small L') (t : Node)
    (ht : parseHuffman L values = .ok (some t)) :
    ∃ codes, interpHuffman L values = .ok codes ∧
      ∀ (s rest : List UInt8) (n : Nat),
        t.parseOne s = .ok n rest ↔ ∃ bs, (bs, n) ∈ codes ∧ s = bs ++ rest := by
  unfold parseHuffman at ht
  unfold interpHuffman
  rw [hr] at ht ⊢
  refine ⟨canonTable L', C30_codes_canonical L' hs, ?_⟩
  intro s rest n
  rw [C30_decode L' hs t ht]
  constructor
  · rintro ⟨l, g, z, rfl⟩; exact ⟨_, (mem_canonTable L' _ n).2 ⟨l, g, z, rfl⟩, rfl⟩
  · rintro ⟨bs, h, rfl⟩
    obtain ⟨l, g, z, rfl⟩ := (mem_canonTable L' bs n).1 h
    exact ⟨l, g, z, rfl⟩

/-- A table is refused by the runtime exactly when two of the interpreter's alternatives overlap (one is a
prefix of the other), i.e. when the interpreter's union is ambiguous. -/
theorem C31_refusal (L : List Nat) (hs : Small L) (codes : List (List UInt8 × Nat)) (hc : makeCodes L = .ok codes) :
    makeDecoder L = .ok none ↔
      ¬ codes.Pairwise (fun e f => ¬ (e.1 <+: f.1 ∨ f.1 <+: e.1)) := by
  rw [C30_codes_canonical L hs] at hc
  cases hc
  have hW : ∀ l ∈ L, l ≤ 47 := hs.2.2
  constructor
  · intro h hp
    obtain ⟨t, h', _⟩ := insertAll_ok (canonTable L) .empty .empty (canonTable_bits L) trivial
      (by intro e _ b w h; cases h) hp
    rw [makeDecoder_eq L hs, h'] at h; cases h
  · intro h
    rw [← (C30_construct L hs 47 hW).2]
    intro hK
    exact h (canonTable_pairwise L 47 hW hK)

/-- Re-ordering puts the `i`-th length at symbol `values[i]`, when the values are distinct and in range. -/
theorem C31_reorder (L values : List Nat) (hlen : L.length ≤ values.length)
    (hnd : values.Nodup) (hrange : ∀ v ∈ values, v < values.length) :
    ∃ L', reorder L (some values) = .ok L' ∧ L'.length = values.length ∧
      (∀ i v, i < L.length → values[i]? = some v → L'[v]? = L[i]?) ∧
      (∀ i v, L.length ≤ i → values[i]? = some v → L'[v]? = some 0) := by
  have gen : ∀ (ls : List Nat) (i : Nat) (acc : List Nat), i + ls.length ≤ values.length →
      acc.length = values.length →
      ∃ L', permuteLoop values i acc ls = .ok L' ∧ L'.length = values.length ∧
        (∀ j v, j < ls.length → values[i + j]? = some v → L'[v]? = ls[j]?) ∧
        (∀ j v, j < i ∨ i + ls.length ≤ j → values[j]? = some v → L'[v]? = acc[v]?) := by
    intro ls
    induction ls with
    | nil => intro i acc _ h; exact ⟨acc, rfl, h, by simp, by simp⟩
    | cons x xs ih =>
      intro i acc h1 h2
      have hi : i < values.length := by simp at h1; omega
      have hv : values[i]? = some values[i] := List.getElem?_eq_getElem hi
      have hvr : values[i] < acc.length := by rw [h2]; exact hrange _ (List.getElem_mem hi)
      obtain ⟨L', g1, g2, g3, g4⟩ := ih (i + 1) (acc.set values[i] x) (by simp at h1; omega) (by simpa using h2)
      refine ⟨L', ?_, g2, ?_, ?_⟩
      · simp only [permuteLoop, load_ok.2 hv, store_ok hvr, g1]
      · intro j v hj hjv
        cases j with
        | zero =>
          simp only [Nat.add_zero] at hjv
          rw [g4 i v (by omega) hjv]
          rw [hv] at hjv; cases hjv
          rw [List.getElem?_set]; simp [hvr]
        | succ j =>
          rw [g3 j v (by simpa using hj) (by rw [← hjv]; congr 1; omega)]
          simp
      · intro j v hj hjv
        rw [g4 j v (by simp at hj; omega) hjv, List.getElem?_set]
        have hne : values[i] ≠ v := by
          intro he
          rcases List.getElem?_eq_some_iff.1 hjv with ⟨hjl, hje⟩
          have : i = j := (List.getElem_inj hnd).1 (by rw [he, hje])
          simp at hj; omega
        rw [if_neg hne]
  obtain ⟨L', h1, h2, h3, h4⟩ := gen L 0 (List.replicate values.length 0) (by omega) (by simp)
  refine ⟨L', h1, h2, ?_, ?_⟩
  · intro i v hi hv; exact h3 i v hi (by simpa using hv)
  · intro i v hi hv
    rw [h4 i v (by omega) hv]
    have := hrange v (List.mem_of_getElem? hv)
    simp [this]

example : reorder [1, 2, 2] (some [2, 0, 1]) = .ok [2, 2, 1] := by decide

end Huffman
end Doodle
