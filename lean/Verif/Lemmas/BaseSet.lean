import Verif.Spec.BaseSet

/-! Lemmas: counting ranks, the loop of `get_unique_solution`. -/

namespace Doodle
namespace Tc

theorem countP_lt {α : Type} {p q : α → Bool} : ∀ {l : List α} {x : α},
    (∀ y ∈ l, p y = true → q y = true) → x ∈ l → p x = false → q x = true → l.countP p < l.countP q
  | [], _, _, h, _, _ => nomatch h
  | y :: ys, x, himp, hx, hp, hq => by
    have hle : ys.countP p ≤ ys.countP q := List.countP_mono_left fun z hz => himp z (.tail _ hz)
    rw [List.countP_cons, List.countP_cons]
    cases hx with
    | head => simp [hp, hq]; omega
    | tail _ hx =>
      have := countP_lt (fun z hz => himp z (.tail _ hz)) hx hp hq
      have hy := himp y (.head _)
      cases hpy : p y <;> cases hqy : q y <;> simp_all <;> omega

theorem Rank.ge_at (r : Rank) (a : Nat) : r.ge (.at a) = true ↔ ∃ b, r = .at b ∧ b ≤ a := by
  cases r with
  | excluded => simp [Rank.ge, Rank.cmp]
  | «at» b =>
    simp only [Rank.ge, Rank.cmp, Rank.at.injEq, exists_eq_left', bne_iff_ne, ne_eq]
    rcases Nat.lt_trichotomy b a with h | h | h
    · rw [Nat.compare_eq_lt.mpr h]; simp; omega
    · rw [Nat.compare_eq_eq.mpr h]; simp; omega
    · rw [Nat.compare_eq_gt.mpr h]; simp; omega

/-- how many candidates rank at least as well as `a` -/
def cnt {n : Nat} (s : Ranks n) (a : Nat) : Nat := (List.finRange n).countP fun j => (s j).ge (.at a)

theorem cnt_pos {n : Nat} {s : Ranks n} {i : Fin n} {a : Nat} (h : s i = .at a) : 1 ≤ cnt s a := by
  apply List.countP_pos_iff.mpr
  exact ⟨i, List.mem_finRange i, by rw [h]; exact (Rank.ge_at _ _).mpr ⟨a, rfl, Nat.le_refl _⟩⟩

theorem cnt_le {n : Nat} (s : Ranks n) {a b : Nat} (h : a ≤ b) : cnt s a ≤ cnt s b := by
  apply List.countP_mono_left
  intro j _ hj
  obtain ⟨c, h1, h2⟩ := (Rank.ge_at _ _).mp hj
  exact (Rank.ge_at _ _).mpr ⟨c, h1, by omega⟩

theorem cnt_lt {n : Nat} {s : Ranks n} {j : Fin n} {a b : Nat} (hj : s j = .at b) (h : a < b) :
    cnt s a < cnt s b := by
  refine countP_lt (x := j) ?_ (List.mem_finRange j) ?_ ?_
  · intro k _ hk
    obtain ⟨c, h1, h2⟩ := (Rank.ge_at _ _).mp hk
    exact (Rank.ge_at _ _).mpr ⟨c, h1, by omega⟩
  · cases hc : (s j).ge (.at a)
    · rfl
    · obtain ⟨c, h1, h2⟩ := (Rank.ge_at _ _).mp hc
      rw [hj] at h1
      cases h1
      omega
  · rw [hj]
    exact (Rank.ge_at _ _).mpr ⟨b, rfl, Nat.le_refl _⟩

theorem cnt_bound {n : Nat} (s : Ranks n) (a : Nat) : cnt s a ≤ n := by
  have := List.countP_le_length (p := fun j => (s j).ge (.at a)) (l := List.finRange n)
  rwa [List.length_finRange] at this

theorem normalize_at {n : Nat} {s : Ranks n} {i : Fin n} {a : Nat} (h : s i = .at a) :
    s.normalize i = .at (cnt s a - 1) := by
  simp only [Ranks.normalize, h, reduceCtorEq, if_false, cnt]

theorem normalize_excluded {n : Nat} {s : Ranks n} {i : Fin n} (h : s i = .excluded) :
    s.normalize i = .excluded := by
  simp [Ranks.normalize, h]

theorem member_iff {n : Nat} {s : Ranks n} {i : Fin n} : Member s i ↔ ∃ a, s i = .at a := by
  unfold Member
  cases s i <;> simp

theorem member_normalize {n : Nat} {s : Ranks n} {i : Fin n} : Member s.normalize i ↔ Member s i := by
  rw [member_iff, member_iff]
  constructor
  · rintro ⟨a, h⟩
    cases hs : s i with
    | excluded => rw [normalize_excluded hs] at h; cases h
    | «at» b => exact ⟨b, rfl⟩
  · rintro ⟨a, h⟩
    exact ⟨_, normalize_at h⟩

theorem cnt_eq_of_le {n : Nat} {s : Ranks n} {i j : Fin n} {a b : Nat} (hi : s i = .at a) (hj : s j = .at b) :
    cnt s a - 1 < cnt s b - 1 ↔ a < b := by
  have h1 := cnt_pos hi
  have h2 := cnt_pos hj
  constructor
  · intro h
    rcases Nat.lt_or_ge a b with h' | h'
    · exact h'
    · have := cnt_le s h'
      omega
  · intro h
    have := cnt_lt hj h
    omega

theorem prefers_normalize {n : Nat} {s : Ranks n} {i j : Fin n} :
    Prefers s.normalize i j ↔ Prefers s i j := by
  constructor
  · rintro ⟨a, b, h1, h2, h⟩
    obtain ⟨a', ha⟩ := member_iff.mp (member_normalize.mp (member_iff.mpr ⟨a, h1⟩))
    obtain ⟨b', hb⟩ := member_iff.mp (member_normalize.mp (member_iff.mpr ⟨b, h2⟩))
    rw [normalize_at ha] at h1
    rw [normalize_at hb] at h2
    cases h1
    cases h2
    exact ⟨a', b', ha, hb, (cnt_eq_of_le ha hb).mp h⟩
  · rintro ⟨a, b, h1, h2, h⟩
    exact ⟨_, _, normalize_at h1, normalize_at h2, (cnt_eq_of_le h1 h2).mpr h⟩

/-- the count of ranks after normalisation is the count before -/
theorem cnt_normalize {n : Nat} {s : Ranks n} {i : Fin n} {a : Nat} (h : s i = .at a) :
    cnt s.normalize (cnt s a - 1) = cnt s a := by
  apply List.countP_congr
  intro j _
  constructor
  · intro hj
    obtain ⟨c, h1, h2⟩ := (Rank.ge_at _ _).mp hj
    obtain ⟨b, hb⟩ := member_iff.mp (member_normalize.mp (member_iff.mpr ⟨c, h1⟩))
    rw [normalize_at hb] at h1
    cases h1
    have := cnt_eq_of_le h hb
    exact (Rank.ge_at _ _).mpr ⟨b, hb, by omega⟩
  · intro hj
    obtain ⟨b, hb, h2⟩ := (Rank.ge_at _ _).mp hj
    have := cnt_eq_of_le h hb
    exact (Rank.ge_at _ _).mpr ⟨_, normalize_at hb, by omega⟩

theorem normalize_normalize {n : Nat} (s : Ranks n) : s.normalize.normalize = s.normalize := by
  funext i
  cases hs : s i with
  | excluded => rw [normalize_excluded (normalize_excluded hs), normalize_excluded hs]
  | «at» a => rw [normalize_at (normalize_at hs), cnt_normalize hs, normalize_at hs]

/-- what `intersection` computes before normalising -/
def meet (a b : Rank) : Rank :=
  match a, b with
  | .at x, .at y => .at (min x y)
  | _, _ => .excluded

theorem minMax_meet (a b : Rank) :
    (if (Ranks.minMax a b).1.isExcluded then Rank.excluded else (Ranks.minMax a b).2) = meet a b := by
  unfold Ranks.minMax Rank.lt
  cases a with
  | excluded => cases b <;> simp [Rank.cmp, Rank.isExcluded, meet]
  | «at» x =>
    cases b with
    | excluded => simp [Rank.cmp, Rank.isExcluded, meet]
    | «at» y =>
      simp only [meet]
      have hc : (Rank.at x).cmp (Rank.at y) = (compare x y).swap := rfl
      rcases Nat.lt_trichotomy x y with h | h | h
      · simp [hc, Nat.compare_eq_lt.mpr h, Rank.isExcluded]; omega
      · simp [hc, Nat.compare_eq_eq.mpr h, Rank.isExcluded]; omega
      · simp [hc, Nat.compare_eq_gt.mpr h, Rank.isExcluded]; omega

theorem intersection_eq {n : Nat} (s t : Ranks n) :
    Ranks.intersection s t = Ranks.normalize fun i => meet (s.normalize i) (t.normalize i) := by
  simp only [Ranks.intersection, minMax_meet]

theorem meet_comm (a b : Rank) : meet a b = meet b a := by
  cases a <;> cases b <;> simp [meet]
  omega

theorem meet_self (a : Rank) : meet a a = a := by
  cases a <;> simp [meet]

theorem meet_at {a b : Rank} {c : Nat} : meet a b = .at c ↔ ∃ x y, a = .at x ∧ b = .at y ∧ c = min x y := by
  cases a <;> cases b <;> simp [meet]
  omega

theorem member_intersection {n : Nat} {s t : Ranks n} {i : Fin n} :
    Member (Ranks.intersection s t) i ↔ Member s i ∧ Member t i := by
  rw [intersection_eq, member_normalize, ← member_normalize (s := s), ← member_normalize (s := t),
    member_iff, member_iff, member_iff]
  constructor
  · rintro ⟨a, h⟩
    obtain ⟨x, y, h1, h2, _⟩ := meet_at.mp h
    exact ⟨⟨x, h1⟩, ⟨y, h2⟩⟩
  · rintro ⟨⟨x, h1⟩, ⟨y, h2⟩⟩
    exact ⟨_, meet_at.mpr ⟨x, y, h1, h2, rfl⟩⟩

/-- the loop invariant of `get_unique_solution` -/
structure BestOK {n : Nat} (s : Ranks n) (l : List (Fin n)) (b : Ranks.Best n) : Prop where
  none : b.candidate = none → b.maxRank = .excluded ∧ b.isUnique = true ∧ ∀ j ∈ l, ¬ Member s j
  some : ∀ i, b.candidate = some i → i ∈ l ∧ ∃ a, s i = .at a ∧ b.maxRank = .at a ∧
    (∀ j ∈ l, ∀ c, s j = .at c → a ≤ c) ∧
    (b.isUnique = true ↔ ∀ j ∈ l, ∀ c, s j = .at c → j ≠ i → a < c)

theorem BestOK.step {n : Nat} {s : Ranks n} {l : List (Fin n)} {b : Ranks.Best n} (h : BestOK s l b)
    {ix : Fin n} (hix : ix ∉ l) : BestOK s (l ++ [ix]) (b.step s ix) := by
  unfold Ranks.Best.step
  split
  · rename_i hs
    refine ⟨fun hc => ?_, fun i hc => ?_⟩
    · obtain ⟨h1, h2, h3⟩ := h.none hc
      refine ⟨h1, h2, fun j hj => ?_⟩
      rw [List.mem_append, List.mem_singleton] at hj
      rcases hj with hj | rfl
      · exact h3 j hj
      · exact fun hm => hm hs
    · obtain ⟨h1, a, h2, h3, h4, h5⟩ := h.some i hc
      refine ⟨List.mem_append.mpr (.inl h1), a, h2, h3, ?_, ?_⟩
      · intro j hj c hjc
        rw [List.mem_append, List.mem_singleton] at hj
        rcases hj with hj | rfl
        · exact h4 j hj c hjc
        · rw [hs] at hjc; cases hjc
      · rw [h5]
        constructor
        · intro hall j hj c hjc hne
          rw [List.mem_append, List.mem_singleton] at hj
          rcases hj with hj | rfl
          · exact hall j hj c hjc hne
          · rw [hs] at hjc; cases hjc
        · intro hall j hj
          exact hall j (List.mem_append.mpr (.inl hj))
  · rename_i k hs
    cases hb : b.candidate with
    | none =>
      obtain ⟨h1, h2, h3⟩ := h.none hb
      rw [h1]
      simp only [Rank.cmp]
      refine ⟨fun hc => (nomatch hc), fun i hc => ?_⟩
      cases hc
      refine ⟨by simp, k, hs, rfl, ?_, ?_⟩
      · intro j hj c hjc
        rw [List.mem_append, List.mem_singleton] at hj
        rcases hj with hj | rfl
        · exact absurd (member_iff.mpr ⟨c, hjc⟩) (h3 j hj)
        · rw [hs] at hjc; cases hjc; omega
      · simp only [true_iff]
        intro j hj c hjc hne
        rw [List.mem_append, List.mem_singleton] at hj
        rcases hj with hj | rfl
        · exact absurd (member_iff.mpr ⟨c, hjc⟩) (h3 j hj)
        · exact absurd rfl hne
    | some i =>
      obtain ⟨h1, a, h2, h3, h4, h5⟩ := h.some i hb
      rw [h3]
      have hne : i ≠ ix := fun e => hix (e ▸ h1)
      simp only [Rank.cmp]
      rcases Nat.lt_trichotomy k a with hk | hk | hk
      · rw [Nat.compare_eq_lt.mpr hk]
        simp only [Ordering.swap]
        refine ⟨fun hc => (nomatch hc), fun i' hc => ?_⟩
        cases hc
        refine ⟨by simp, k, hs, rfl, ?_, ?_⟩
        · intro j hj c hjc
          rw [List.mem_append, List.mem_singleton] at hj
          rcases hj with hj | rfl
          · have := h4 j hj c hjc; omega
          · rw [hs] at hjc; cases hjc; omega
        · simp only [true_iff]
          intro j hj c hjc hne
          rw [List.mem_append, List.mem_singleton] at hj
          rcases hj with hj | rfl
          · have := h4 j hj c hjc; omega
          · exact absurd rfl hne
      · rw [Nat.compare_eq_eq.mpr hk]
        simp only [Ordering.swap]
        subst hk
        refine ⟨fun hc => ?_, fun i' hc => ?_⟩
        · simp [hb] at hc
        obtain rfl : i = i' := by simpa [hb] using hc
        refine ⟨List.mem_append.mpr (.inl h1), k, h2, rfl, ?_, ?_⟩
        · intro j hj c hjc
          rw [List.mem_append, List.mem_singleton] at hj
          rcases hj with hj | rfl
          · exact h4 j hj c hjc
          · rw [hs] at hjc; cases hjc; omega
        · simp only [Bool.false_eq_true, false_iff]
          intro hall
          have := hall ix (by simp) k hs (fun e => hne e.symm)
          omega
      · rw [Nat.compare_eq_gt.mpr hk]
        simp only [Ordering.swap]
        refine ⟨fun hc => ?_, fun i' hc => ?_⟩
        · simp [hb] at hc
        obtain rfl : i = i' := by simpa [hb] using hc
        refine ⟨List.mem_append.mpr (.inl h1), a, h2, h3, ?_, ?_⟩
        · intro j hj c hjc
          rw [List.mem_append, List.mem_singleton] at hj
          rcases hj with hj | rfl
          · exact h4 j hj c hjc
          · rw [hs] at hjc; cases hjc; omega
        · rw [h5]
          constructor
          · intro hall j hj c hjc hne'
            rw [List.mem_append, List.mem_singleton] at hj
            rcases hj with hj | rfl
            · exact hall j hj c hjc hne'
            · rw [hs] at hjc; cases hjc; omega
          · intro hall j hj
            exact hall j (List.mem_append.mpr (.inl hj))

theorem BestOK.foldl {n : Nat} {s : Ranks n} : ∀ {l' l : List (Fin n)} {b : Ranks.Best n}, BestOK s l b →
    (l ++ l').Nodup → BestOK s (l ++ l') (l'.foldl (Ranks.Best.step s) b)
  | [], l, b, h, _ => by simpa using h
  | ix :: l', l, b, h, hn => by
    have hix : ix ∉ l := by
      intro hm
      exact (List.nodup_append.mp hn).2.2 ix hm ix (.head _) rfl
    have := BestOK.foldl (l' := l') (h.step hix) (by simpa using hn)
    simpa using this

theorem uniqueSolution_iff {n : Nat} {s : Ranks n} {i : Fin n} :
    Ranks.uniqueSolution s = some i ↔ Member s i ∧ ∀ j, Member s j → j ≠ i → Prefers s i j := by
  have h0 : BestOK s.normalize [] (⟨none, .excluded, true⟩ : Ranks.Best n) :=
    ⟨fun _ => ⟨rfl, rfl, fun _ h => nomatch h⟩, fun _ h => nomatch h⟩
  have h := h0.foldl (l' := List.finRange n) (List.nodup_finRange n)
  rw [List.nil_append] at h
  unfold Ranks.uniqueSolution
  dsimp only
  generalize (List.finRange n).foldl (Ranks.Best.step s.normalize) ⟨none, .excluded, true⟩ = b at h
  constructor
  · intro hr
    split at hr
    · rename_i i' hc
      split at hr
      · rename_i hu
        cases hr
        obtain ⟨_, a, h2, _, _, h5⟩ := h.some _ hc
        refine ⟨member_normalize.mp (member_iff.mpr ⟨a, h2⟩), fun j hj hne => prefers_normalize.mp ?_⟩
        obtain ⟨c, hc'⟩ := member_iff.mp (member_normalize.mpr hj)
        exact ⟨a, c, h2, hc', h5.mp hu j (List.mem_finRange j) c hc' hne⟩
      · cases hr
    · cases hr
  · rintro ⟨hm, hall⟩
    cases hc : b.candidate with
    | none => exact absurd (member_normalize.mpr hm) ((h.none hc).2.2 i (List.mem_finRange i))
    | some i' =>
      obtain ⟨_, a, h2, _, h4, h5⟩ := h.some _ hc
      have heq : i' = i := by
        apply Decidable.byContradiction
        intro hne
        obtain ⟨x, y, h6, h7, h8⟩ := prefers_normalize.mpr
          (hall i' (member_normalize.mp (member_iff.mpr ⟨a, h2⟩)) hne)
        have := h4 i (List.mem_finRange i) x h6
        rw [h2] at h7
        cases h7
        omega
      subst heq
      have hu : b.isUnique = true := by
        rw [h5]
        intro j _ c hjc hne
        obtain ⟨x, y, h6, h7, h8⟩ := prefers_normalize.mpr
          (hall j (member_normalize.mp (member_iff.mpr ⟨c, hjc⟩)) hne)
        rw [h2] at h6
        rw [hjc] at h7
        cases h6
        cases h7
        exact h8
      simp [hu]

theorem isExcluded_iff {n : Nat} {s : Ranks n} {i : Fin n} : (!(s i).isExcluded) = true ↔ Member s i := by
  unfold Member
  cases s i <;> simp [Rank.isExcluded]

theorem asSingleton_iff {n : Nat} {s : Ranks n} {i : Fin n} :
    Ranks.asSingleton s = some i ↔ Member s i ∧ ∀ j, Member s j → j = i := by
  have hmem : ∀ j, j ∈ (List.finRange n).filter (fun i => !(s.normalize i).isExcluded) ↔ Member s j := by
    intro j
    rw [List.mem_filter, isExcluded_iff, member_normalize]
    simp [List.mem_finRange]
  have hnd : ((List.finRange n).filter (fun i => !(s.normalize i).isExcluded)).Nodup :=
    (List.nodup_finRange n).filter _
  unfold Ranks.asSingleton
  generalize (List.finRange n).filter (fun i => !(s.normalize i).isExcluded) = l at hmem hnd
  constructor
  · intro h
    split at h
    · cases h
      refine ⟨(hmem i).mp (.head _), fun j hj => ?_⟩
      have := (hmem j).mpr hj
      simpa using this
    · cases h
  · rintro ⟨hm, hall⟩
    have hl : ∀ j ∈ l, j = i := fun j hj => hall j ((hmem j).mp hj)
    have hi : i ∈ l := (hmem i).mpr hm
    match l, hl, hi, hnd with
    | [j], hl, _, _ => rw [hl j (.head _)]
    | j :: k :: l', hl, _, hnd =>
      have h1 := hl j (.head _)
      have h2 := hl k (.tail _ (.head _))
      rw [h1, h2] at hnd
      simp at hnd

theorem isEmpty_iff {n : Nat} {s : Ranks n} : Ranks.isEmpty s = true ↔ ∀ i, ¬ Member s i := by
  simp [Ranks.isEmpty, Member, List.mem_finRange]

end Tc
end Doodle
