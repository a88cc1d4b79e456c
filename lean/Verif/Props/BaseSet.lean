import Verif.Lemmas.BaseSet

/-!
C40: ranked sets of candidate integer types.

Intersecting two candidate-type sets keeps exactly the types in both; normalisation changes neither
membership nor relative preference; the chosen solution is returned iff exactly one member has the best
preference, and is that member; candidate sets derived from value bounds contain exactly the machine types
that can represent the whole range.
-/

namespace Doodle
namespace Tc

open Num (MachineRep BitWidth)

/-! ### rank vectors -/

/-- normalisation changes neither membership nor preference, for any rank assignment of any size, and doing
it again changes nothing. -/
theorem C40_normalize {n : Nat} (s : Ranks n) :
    (∀ i, Member s.normalize i ↔ Member s i) ∧
    (∀ i j, Prefers s.normalize i j ↔ Prefers s i j) ∧
    s.normalize.normalize = s.normalize :=
  ⟨fun _ => member_normalize, fun _ _ => prefers_normalize, normalize_normalize s⟩

/-- the intersection has exactly the members of both, does not depend on the order of its arguments, and
keeps every preference on which both arguments agree. -/
theorem C40_intersection {n : Nat} (s t : Ranks n) :
    (∀ i, Member (Ranks.intersection s t) i ↔ Member s i ∧ Member t i) ∧
    Ranks.intersection s t = Ranks.intersection t s ∧
    (∀ i j, Prefers s i j → Prefers t i j → Prefers (Ranks.intersection s t) i j) := by
  refine ⟨fun _ => member_intersection, ?_, ?_⟩
  · rw [intersection_eq, intersection_eq]
    congr 1
    funext i
    exact meet_comm _ _
  · intro i j hs ht
    obtain ⟨a, b, h1, h2, h3⟩ := prefers_normalize.mpr hs
    obtain ⟨c, d, h4, h5, h6⟩ := prefers_normalize.mpr ht
    rw [intersection_eq]
    exact prefers_normalize.mpr
      ⟨_, _, meet_at.mpr ⟨a, c, h1, h4, rfl⟩, meet_at.mpr ⟨b, d, h2, h5, rfl⟩, by omega⟩

/-- intersecting a set with itself, or with a set in which all types are equally good, changes neither
membership nor preference: the result is the normalised set. -/
theorem C40_intersection_neutral {n : Nat} (s : Ranks n) (k : Nat) :
    Ranks.intersection s s = s.normalize ∧ Ranks.intersection s (fun _ => .at k) = s.normalize := by
  constructor
  · rw [intersection_eq]
    simp only [meet_self]
    exact normalize_normalize s
  · rw [intersection_eq]
    have : (fun i => meet (s.normalize i) (Ranks.normalize (fun _ : Fin n => Rank.at k) i)) = s.normalize := by
      funext i
      have hk : Ranks.normalize (fun _ : Fin n => Rank.at k) i = .at (n - 1) := by
        rw [normalize_at (a := k) rfl]
        have : cnt (fun _ : Fin n => Rank.at k) k = n := by
          have h1 : cnt (fun _ : Fin n => Rank.at k) k = (List.finRange n).countP (fun _ => true) := by
            apply List.countP_congr
            intro j _
            have := (Rank.ge_at (.at k) k).mpr ⟨k, rfl, Nat.le_refl _⟩
            simp [this]
          rw [h1, List.countP_true, List.length_finRange]
        rw [this]
      rw [hk]
      cases hs : s i with
      | excluded => rw [normalize_excluded hs]; rfl
      | «at» a =>
        rw [normalize_at hs]
        have := cnt_bound s a
        simp only [meet, Rank.at.injEq]
        omega
    rw [this]
    exact normalize_normalize s

/-- the chosen type is returned exactly when it is a member strictly preferred to every other member. -/
theorem C40_choice {n : Nat} (s : Ranks n) (i : Fin n) :
    Ranks.uniqueSolution s = some i ↔ Member s i ∧ ∀ j, Member s j → j ≠ i → Prefers s i j :=
  uniqueSolution_iff

/-- consequently a type that both sets choose is chosen by their intersection -/
theorem C40_agreed_choice {n : Nat} (s t : Ranks n) (i : Fin n) (hs : Ranks.uniqueSolution s = some i)
    (ht : Ranks.uniqueSolution t = some i) : Ranks.uniqueSolution (Ranks.intersection s t) = some i := by
  obtain ⟨h1, h2⟩ := uniqueSolution_iff.mp hs
  obtain ⟨h3, h4⟩ := uniqueSolution_iff.mp ht
  refine uniqueSolution_iff.mpr ⟨member_intersection.mpr ⟨h1, h3⟩, fun j hj hne => ?_⟩
  obtain ⟨h5, h6⟩ := member_intersection.mp hj
  exact (C40_intersection s t).2.2 i j (h2 j h5 hne) (h4 j h6 hne)

/-- the only member, when there is just one -/
theorem C40_singleton {n : Nat} (s : Ranks n) (i : Fin n) :
    Ranks.asSingleton s = some i ↔ Member s i ∧ ∀ j, Member s j → j = i :=
  asSingleton_iff

theorem C40_empty {n : Nat} (s : Ranks n) : Ranks.isEmpty s = true ↔ ∀ i, ¬ Member s i := isEmpty_iff

/-- The order of intersections matters: the same three constraints choose a type or fail to choose one
depending on how they are grouped, since an intermediate normalisation forgets how much better one type
was. (membership does not depend on the grouping, by `C40_intersection`) -/
theorem C40_grouping_refuted :
    Ranks.uniqueSolution (Ranks.intersection (Ranks.intersection UintSet.short8 UintSet.short8)
      (UintSet.anyDefault .b16)) ≠
    Ranks.uniqueSolution (Ranks.intersection UintSet.short8
      (Ranks.intersection UintSet.short8 (UintSet.anyDefault .b16))) := by
  decide +kernel

theorem C40_grouping_members {n : Nat} (s t u : Ranks n) (i : Fin n) :
    Member (Ranks.intersection (Ranks.intersection s t) u) i ↔
      Member (Ranks.intersection s (Ranks.intersection t u)) i := by
  simp only [member_intersection, and_assoc]

/-! ### sets of machine integer types -/

theorem primAt_primIx (p : MachineRep) : primAt (primIx p) = p := by
  obtain ⟨s, w⟩ := p
  cases s <;> cases w <;> rfl

theorem primIx_primAt : ∀ i, primIx (primAt i) = i := by decide

theorem primContains_iff (s : PrimIntSet) (p : MachineRep) :
    PrimIntSet.contains s p = true ↔ Member s (primIx p) := isExcluded_iff

/-- unification of two sets of machine types keeps exactly the types in both; it fails only when there is
no common type. -/
theorem C40_unify_ints (s t : IntSet) :
    (∀ r, IntSet.unify s t = some r → ∀ p, r.contains p = true ↔ s.contains p = true ∧ t.contains p = true) ∧
    (IntSet.unify s t = none → ∀ p, ¬ (s.contains p = true ∧ t.contains p = true)) := by
  cases s with
  | single p =>
    unfold IntSet.unify
    dsimp only
    by_cases h : t.contains p = true
    · rw [if_pos h]
      refine ⟨fun r hr q => ?_, fun h => nomatch h⟩
      cases hr
      simp only [IntSet.contains, decide_eq_true_eq]
      constructor
      · intro hq
        subst hq
        exact ⟨rfl, h⟩
      · exact fun hq => hq.1
    · rw [if_neg h]
      refine ⟨fun r hr => (nomatch hr), fun _ q hq => ?_⟩
      have := of_decide_eq_true hq.1
      subst this
      exact h hq.2
  | z s0 =>
    cases t with
    | single p =>
      unfold IntSet.unify
      dsimp only
      by_cases h : PrimIntSet.contains s0 p = true
      · rw [if_pos h]
        refine ⟨fun r hr q => ?_, fun h => nomatch h⟩
        cases hr
        simp only [IntSet.contains, decide_eq_true_eq]
        constructor
        · intro hq
          subst hq
          exact ⟨h, rfl⟩
        · exact fun hq => hq.2
      · rw [if_neg h]
        refine ⟨fun r hr => (nomatch hr), fun _ q hq => ?_⟩
        have := of_decide_eq_true hq.2
        subst this
        exact h hq.1
    | z s1 =>
      refine ⟨fun r hr q => ?_, fun h => nomatch h⟩
      cases hr
      simp only [IntSet.contains, primContains_iff, member_intersection]

/-- … but it can also succeed with a set that has no member: "any unsigned type" and "a type that holds
`-1 … 300`" have nothing in common, yet unifying them reports no conflict. -/
theorem C40_unify_conflict_refuted :
    ∃ s t r, IntSet.fromBounds ⟨-1, 300⟩ = .ok s ∧ IntSet.ofBaseSet (.u UintSet.any) = some t ∧
      IntSet.unify s t = some r ∧ ∀ p, r.contains p = false := by
  refine ⟨_, _, _, rfl, rfl, rfl, ?_⟩
  rintro ⟨s, w⟩
  cases s <;> cases w <;> decide +kernel

/-- the machine type chosen from a set -/
theorem C40_solution_ints (s : IntSet) :
    (s.uniqueSolution = .noSolution ↔ ∀ p, s.contains p = false) ∧
    (∀ p, s.uniqueSolution = .found p → s.contains p = true) ∧
    (∀ p, s.contains p = true → (∀ q, s.contains q = true → q = p) → s.uniqueSolution = .found p) := by
  cases s with
  | single p =>
    refine ⟨⟨fun h => (nomatch h), fun h => ?_⟩, fun q h => ?_, fun q h _ => ?_⟩
    · have := h p
      simp [IntSet.contains] at this
    · cases h
      simp [IntSet.contains]
    · have := of_decide_eq_true h
      rw [this]
      rfl
  | z s =>
    have hmem : ∀ i, Member s i ↔ PrimIntSet.contains s (primAt i) = true := by
      intro i
      rw [primContains_iff, primIx_primAt]
    refine ⟨⟨fun h => ?_, fun h => ?_⟩, fun q h => ?_, fun q h hall => ?_⟩
    · unfold IntSet.uniqueSolution at h
      dsimp only at h
      split at h
      · rename_i he
        intro p
        have := isEmpty_iff.mp he (primIx p)
        rw [← primContains_iff] at this
        simpa [IntSet.contains] using this
      · split at h <;> cases h
    · unfold IntSet.uniqueSolution
      dsimp only
      rw [if_pos]
      apply isEmpty_iff.mpr
      intro i hi
      have := (hmem i).mp hi
      have h' := h (primAt i)
      simp only [IntSet.contains] at h'
      rw [h'] at this
      cases this
    · unfold IntSet.uniqueSolution at h
      dsimp only at h
      split at h
      · cases h
      · split at h
        · rename_i i hi
          cases h
          exact (hmem i).mp (uniqueSolution_iff.mp hi).1
        · cases h
    · have hu : Ranks.uniqueSolution s = some (primIx q) := by
        refine uniqueSolution_iff.mpr ⟨(primContains_iff s q).mp h, fun j hj hne => ?_⟩
        have := hall (primAt j) ((hmem j).mp hj)
        exact absurd (by rw [← this, primIx_primAt]) hne
      unfold IntSet.uniqueSolution
      dsimp only
      rw [if_neg, hu]
      · simp only [primAt_primIx]
      · intro he
        exact isEmpty_iff.mp he _ ((primContains_iff s q).mp h)

/-! ### sets from bounds -/

theorem contains_remove (s : PrimIntSet) (p q : MachineRep) :
    PrimIntSet.contains (PrimIntSet.remove s p) q = (PrimIntSet.contains s q && decide (q ≠ p)) := by
  unfold PrimIntSet.contains PrimIntSet.remove
  by_cases h : q = p
  · simp [h, Rank.isExcluded]
  · rw [if_neg]
    · simp [h]
    · intro e
      apply h
      rw [← primAt_primIx q, ← primAt_primIx p, e]

theorem asBounds_ordered (p : MachineRep) : p.asBounds.min ≤ p.asBounds.max := by
  obtain ⟨s, w⟩ := p
  cases s <;> cases w <;> decide

theorem fromBoundsLoop_spec (b : Num.Bounds) : ∀ (ps : List MachineRep) (s : PrimIntSet),
    ∃ s', fromBoundsLoop b ps s = .ok s' ∧ ∀ q, PrimIntSet.contains s' q = true ↔
      PrimIntSet.contains s q = true ∧ (q ∈ ps → q.asBounds.min ≤ b.min ∧ b.max ≤ q.asBounds.max)
  | [], s => ⟨s, rfl, fun q => by simp⟩
  | p :: ps, s => by
    have hp := asBounds_ordered p
    have he : b.isEncompassedBy p.asBounds =
        .ok (decide (b.min ≥ p.asBounds.min) && decide (b.max ≤ p.asBounds.max)) := by
      simp [Num.Bounds.isEncompassedBy, hp]
    obtain ⟨s', h1, h2⟩ := fromBoundsLoop_spec b ps
      (if decide (b.min ≥ p.asBounds.min) && decide (b.max ≤ p.asBounds.max) then s
       else PrimIntSet.remove s p)
    refine ⟨s', ?_, fun q => ?_⟩
    · unfold fromBoundsLoop
      rw [he]
      exact h1
    · rw [h2]
      split
      · rename_i hc
        simp only [Bool.and_eq_true, decide_eq_true_eq] at hc
        constructor
        · rintro ⟨h3, h4⟩
          refine ⟨h3, fun hm => ?_⟩
          cases hm with
          | head => exact hc
          | tail _ hm => exact h4 hm
        · rintro ⟨h3, h4⟩
          exact ⟨h3, fun hm => h4 (.tail _ hm)⟩
      · rename_i hc
        simp only [Bool.and_eq_true, decide_eq_true_eq] at hc
        rw [contains_remove]
        simp only [Bool.and_eq_true, decide_eq_true_eq, ne_eq]
        constructor
        · rintro ⟨⟨h3, h5⟩, h4⟩
          refine ⟨h3, fun hm => ?_⟩
          cases hm with
          | head => exact absurd rfl h5
          | tail _ hm => exact h4 hm
        · rintro ⟨h3, h4⟩
          exact ⟨⟨h3, fun e => hc (e ▸ h4 (e ▸ .head _))⟩, fun hm => h4 (.tail _ hm)⟩

theorem holds_iff (p : MachineRep) (v : Int) : Holds p v ↔ p.asBounds.min ≤ v ∧ v ≤ p.asBounds.max := by
  obtain ⟨s, w⟩ := p
  cases s <;> cases w <;> simp [Holds, MachineRep.asBounds, BitWidth.bits] <;> omega

/-- The candidate set derived from a range of values never fails to be computed, and contains exactly the
machine types all of whose values in the range it can represent. -/
theorem C40_bounds (b : Num.Bounds) (hb : b.min ≤ b.max) :
    ∃ s, IntSet.fromBounds b = .ok s ∧
      ∀ p, s.contains p = true ↔ ∀ v, b.min ≤ v → v ≤ b.max → Holds p v := by
  obtain ⟨s', h1, h2⟩ := fromBoundsLoop_spec b ((List.finRange 8).map primAt) PrimIntSet.any
  have hall : ∀ p : MachineRep, PrimIntSet.contains s' p = true ↔
      p.asBounds.min ≤ b.min ∧ b.max ≤ p.asBounds.max := by
    intro p
    rw [h2]
    have h3 : p ∈ (List.finRange 8).map primAt :=
      List.mem_map.mpr ⟨primIx p, List.mem_finRange _, primAt_primIx p⟩
    have h4 : PrimIntSet.contains PrimIntSet.any p = true := rfl
    exact ⟨fun h => h.2 h3, fun h => ⟨h4, fun _ => h⟩⟩
  have hspec : ∀ p : MachineRep, (p.asBounds.min ≤ b.min ∧ b.max ≤ p.asBounds.max) ↔
      ∀ v, b.min ≤ v → v ≤ b.max → Holds p v := by
    intro p
    constructor
    · intro h v h3 h4
      exact (holds_iff p v).mpr ⟨by omega, by omega⟩
    · intro h
      have h3 := (holds_iff p _).mp (h b.min (Int.le_refl _) hb)
      have h4 := (holds_iff p _).mp (h b.max hb (Int.le_refl _))
      exact ⟨h3.1, h4.2⟩
  cases hs : Ranks.asSingleton (Ranks.normalize s') with
  | none =>
    refine ⟨.z (Ranks.normalize s'), ?_, fun p => ?_⟩
    · unfold IntSet.fromBounds
      rw [h1]
      simp only [Panicky.bind_eq_ok]
      exact ⟨s', rfl, by rw [hs]⟩
    · simp only [IntSet.contains]
      rw [primContains_iff, member_normalize, ← primContains_iff, hall, hspec]
  | some i =>
    refine ⟨.single (primAt i), ?_, fun p => ?_⟩
    · unfold IntSet.fromBounds
      rw [h1]
      simp only [Panicky.bind_eq_ok]
      exact ⟨s', rfl, by rw [hs]⟩
    · obtain ⟨h3, h4⟩ := asSingleton_iff.mp hs
      simp only [IntSet.contains, decide_eq_true_eq]
      rw [← hspec, ← hall]
      constructor
      · intro h
        subst h
        rw [primContains_iff, primIx_primAt]
        exact member_normalize.mp h3
      · intro h
        have := h4 _ (member_normalize.mpr ((primContains_iff _ _).mp h))
        rw [← this, primAt_primIx]

/-- a range crossing zero and needing 16 bits leaves the three larger signed types -/
example : ∃ s, IntSet.fromBounds ⟨-1, 300⟩ = .ok s ∧ s.contains Num.I16 = true ∧ s.contains Num.I64 = true ∧
    s.contains Num.I8 = false ∧ s.contains Num.U64 = false ∧ s.uniqueSolution = .multiple :=
  ⟨_, rfl, by decide +kernel⟩

/-- a range that only one type can hold is resolved at once -/
example : ∃ s, IntSet.fromBounds ⟨0, 2 ^ 63⟩ = .ok s ∧ s.uniqueSolution = .found Num.U64 :=
  ⟨_, rfl, by decide +kernel⟩

/-! ### sets of unsigned types -/

/-- membership in the sets of unsigned types used by the type checker, for an unsigned integer type -/
theorem C40_width_sets (w v : BitWidth) :
    (UintSet.contains (UintSet.atLeast w) (.num v) = .ok (decide (w.bits ≤ v.bits))) ∧
    (UintSet.contains UintSet.any (.num v) = .ok true) ∧
    (UintSet.contains UintSet.empty (.num v) = .ok false) ∧
    (UintSet.contains UintSet.short8 (.num v) = .ok (decide (v.bits ≤ 16))) ∧
    (UintSet.contains (UintSet.anyDefault w) (.num v) = .ok true) ∧
    Ranks.uniqueSolution UintSet.short8 = some (widthIx .b8) ∧
    Ranks.uniqueSolution (UintSet.anyDefault w) = some (widthIx w) := by
  cases w <;> cases v <;> decide +kernel

/-- unification of two candidate sets that do not involve `bool` or `char` keeps exactly the types in both,
and fails only when there is no common type. -/
theorem C40_unify_unsigned (s t : BaseSet) (hs : ∀ b, s = .single b → ∃ w, b = .num w)
    (ht : ∀ b, t = .single b → ∃ w, b = .num w) :
    ∃ r, BaseSet.unify s t = .ok r ∧
      (∀ u, r = some u → ∀ w, u.contains (.num w) = .ok true ↔
        s.contains (.num w) = .ok true ∧ t.contains (.num w) = .ok true) ∧
      (r = none → ∀ w, ¬ (s.contains (.num w) = .ok true ∧ t.contains (.num w) = .ok true)) := by
  have huc : ∀ (us : UintSet) (w : BitWidth), UintSet.contains us (.num w) =
      .ok (decide (us (widthIx w) ≠ .excluded)) := fun _ _ => rfl
  cases s with
  | single b1 =>
    obtain ⟨w1, rfl⟩ := hs b1 rfl
    cases t with
    | single b2 =>
      obtain ⟨w2, rfl⟩ := ht b2 rfl
      refine ⟨_, rfl, ?_, ?_⟩
      · intro u hu w
        by_cases h : w1 = w2
        · subst h
          simp only [if_pos] at hu
          cases hu
          simp [BaseSet.contains]
        · rw [if_neg (by simpa using h)] at hu
          cases hu
      · intro hn w hw
        simp only [BaseSet.contains, Panicky.ok.injEq, decide_eq_true_eq, BaseType.num.injEq] at hw
        obtain ⟨rfl, rfl⟩ := hw
        simp at hn
    | u us =>
      refine ⟨_, rfl, ?_, ?_⟩
      · intro u hu w
        simp only [decide_not, Bool.not_eq_true', decide_eq_false_iff_not] at hu
        by_cases h : us (widthIx w1) = .excluded
        · simp [h] at hu
        · simp only [h, not_false_eq_true, if_true, Option.some.injEq] at hu
          subst hu
          simp only [BaseSet.contains, huc, Panicky.ok.injEq, decide_eq_true_eq, BaseType.num.injEq]
          constructor
          · rintro rfl
            exact ⟨rfl, h⟩
          · exact fun h => h.1
      · intro hn w hw
        simp only [BaseSet.contains, huc, Panicky.ok.injEq, decide_eq_true_eq, BaseType.num.injEq] at hw
        obtain ⟨rfl, h⟩ := hw
        simp [h] at hn
  | u us =>
    cases t with
    | single b2 =>
      obtain ⟨w2, rfl⟩ := ht b2 rfl
      refine ⟨_, rfl, ?_, ?_⟩
      · intro u hu w
        simp only [decide_not, Bool.not_eq_true', decide_eq_false_iff_not] at hu
        by_cases h : us (widthIx w2) = .excluded
        · simp [h] at hu
        · simp only [h, not_false_eq_true, if_true, Option.some.injEq] at hu
          subst hu
          simp only [BaseSet.contains, huc, Panicky.ok.injEq, decide_eq_true_eq, BaseType.num.injEq]
          constructor
          · rintro rfl
            exact ⟨h, rfl⟩
          · exact fun h => h.2
      · intro hn w hw
        simp only [BaseSet.contains, huc, Panicky.ok.injEq, decide_eq_true_eq, BaseType.num.injEq] at hw
        obtain ⟨h, rfl⟩ := hw
        simp [h] at hn
    | u ut =>
      refine ⟨_, rfl, ?_, fun h => nomatch h⟩
      intro u hu w
      cases hu
      have := member_intersection (s := us) (t := ut) (i := widthIx w)
      simp only [Member] at this
      simp only [BaseSet.contains, huc, Panicky.ok.injEq, decide_eq_true_eq]
      exact this

/-- Unifying "any unsigned integer" with `bool` or `char` aborts instead of reporting a conflict. -/
theorem C40_unify_refuted :
    BaseSet.unify (.u UintSet.any) (.single .bool) = .panic ∧
    BaseSet.unify (.single .char) (.u UintSet.any) = .panic ∧
    BaseSet.contains (.u UintSet.any) .bool = .panic ∧
    BaseSet.unify (.single .char) (.single .bool) = .ok none :=
  ⟨rfl, rfl, rfl, rfl⟩

/-- going between sets of unsigned types and sets of machine types keeps the unsigned members, and adds no
signed ones. -/
theorem C40_convert (s : UintSet) (t : PrimIntSet) (w : BitWidth) :
    (PrimIntSet.contains (UintSet.toPrimIntSet s) ⟨false, w⟩ = true ↔
      UintSet.contains s (.num w) = .ok true) ∧
    PrimIntSet.contains (UintSet.toPrimIntSet s) ⟨true, w⟩ = false ∧
    (UintSet.contains (PrimIntSet.toUintSet t) (.num w) = .ok true ↔
      PrimIntSet.contains t ⟨false, w⟩ = true) := by
  refine ⟨?_, ?_, ?_⟩
  · rw [primContains_iff]
    have h2 : UintSet.contains s (.num w) = .ok (decide (s (widthIx w) ≠ .excluded)) := rfl
    rw [h2, Panicky.ok.injEq, decide_eq_true_eq]
    cases w <;> exact Iff.rfl
  · cases w <;> rfl
  · rw [primContains_iff]
    have h := member_normalize (s := fun i : Fin 4 => t ⟨i.val, by omega⟩) (i := widthIx w)
    have h2 : UintSet.contains (PrimIntSet.toUintSet t) (.num w) =
      .ok (decide (PrimIntSet.toUintSet t (widthIx w) ≠ .excluded)) := rfl
    rw [h2, Panicky.ok.injEq, decide_eq_true_eq]
    refine h.trans ?_
    cases w <;> exact Iff.rfl

/-- converting a whole candidate set of unsigned types to one of machine types, and back, keeps exactly the
unsigned members; a set that holds only `Bool` or `Char`, or only a signed type, is refused. -/
theorem C40_convert_sets :
    (∀ s t, IntSet.ofBaseSet s = some t → ∀ p : MachineRep, t.contains p = true ↔
      p.isSigned = false ∧ s.contains (.num p.bitWidth) = .ok true) ∧
    (∀ s, IntSet.ofBaseSet s = none ↔ s = .single .bool ∨ s = .single .char) ∧
    (∀ t s, IntSet.toBaseSet t = some s → ∀ w : BitWidth, s.contains (.num w) = .ok true ↔
      t.contains ⟨false, w⟩ = true) ∧
    (∀ t, IntSet.toBaseSet t = none ↔ ∃ w, t = .single ⟨true, w⟩) := by
  refine ⟨fun s t h p => ?_, fun s => ?_, fun t s h w => ?_, fun t => ?_⟩
  · obtain ⟨sg, w⟩ := p
    cases s with
    | single b =>
      cases b with
      | num v =>
        cases h
        cases sg <;> simp [IntSet.contains, BaseSet.contains]
      | bool => cases h
      | char => cases h
    | u us =>
      cases h
      have hc := C40_convert us (UintSet.toPrimIntSet us) w
      cases sg with
      | false => simpa [IntSet.contains, BaseSet.contains] using hc.1
      | true => simp [IntSet.contains, hc.2.1]
  · cases s with
    | single b => cases b <;> simp [IntSet.ofBaseSet]
    | u us => simp [IntSet.ofBaseSet]
  · cases t with
    | single p =>
      obtain ⟨sg, v⟩ := p
      cases sg <;> cases h
      simp [IntSet.contains, BaseSet.contains]
    | z ps =>
      cases h
      exact (C40_convert UintSet.any ps w).2.2
  · cases t with
    | single p =>
      obtain ⟨sg, v⟩ := p
      cases sg <;> simp [IntSet.toBaseSet]
    | z ps => simp [IntSet.toBaseSet]

/-- a preference survives normalisation even when ranks have gaps: ranks 0, 9, 9 become 0, 2, 2 -/
example : Ranks.normalize (fun i : Fin 3 => if i = 0 then .at 0 else .at 9) 1 = .at 2 ∧
    Ranks.uniqueSolution (fun i : Fin 3 => if i = 0 then .at 0 else .at 9) = some 0 := by decide +kernel

end Tc
end Doodle
