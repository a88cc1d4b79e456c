import Verif.Lemmas.PredictiveFound
import Verif.Lemmas.Consume
import Verif.Props.ByteSet

/-!
A check for predictive formats (C12): tables say, for each item, which bytes it may begin with (`σ`), whether it may
read nothing (`ν`), and which bytes may come after it (`φ`).  If the check succeeds the module is `Predictive`.
-/

namespace Doodle
namespace Predictive

open Grammar

/-- the view is a name -/
def isVar : ViewExpr → Bool
  | .var _ => true
  | _ => false

theorem isVar_iff {v : ViewExpr} (h : isVar v = true) : ∃ x, v = .var x := by
  cases v with
  | var x => exact ⟨x, rfl⟩
  | _ => cases h

/-- nothing is known about the count, or it is a literal -/
def countOk (e : Expr) : Bool :=
  match e with
  | .lit _ _ => true
  | e =>
    match e.bounds with
    | .ok b => b.min == 0 && b.asExact.isNone
    | .panic => true

/-- Counts whose static bounds are sound are known. -/
theorem countKnown_of {e : Expr} (h : e.SpineSafe) : CountKnown e := fun s n bd hd hb => by
  have := Consume.denotesNat_bounds h hb hd
  refine ⟨this.1, fun k hk => ?_⟩
  unfold Bounds.asExact at hk
  split at hk
  · next q hq =>
    split at hk
    · cases hk
      have h2 := this.2 _ hq
      have h1 := this.1
      omega
    · cases hk
  · cases hk

theorem countOk_known {e : Expr} (h : countOk e = true) : CountKnown e := by
  unfold countOk at h
  split at h
  · exact countKnown_of trivial
  · intro s n bd hd hb
    rw [hb] at h
    simp at h
    exact ⟨by omega, fun k hk => by rw [h.2] at hk; cases hk⟩

mutual
/-- the format may read nothing -/
def skipsB (ν : Nat → Bool) : Format → Bool
  | .itemVar level _ _ => ν level
  | .variant _ f | .repeat1 f | .repeatUntilLast _ f | .repeatUntilSeq _ f | .map f _ | .where_ f _ _ | .let_ _ _ f
  | .dynamic _ _ _ f | .hint f | .liftedSome f | .letView _ f | .enforce f | .permit f _ => skipsB ν f
  | .union fs => skipsAny ν fs
  | .unionNondet fs => skipsAny ν fs
  | .tuple fs => skipsAll ν fs
  | .sequence fs => skipsAll ν fs
  | .repeatCount e f => (match e.bounds with | .ok b => b.min == 0 | .panic => true) || skipsB ν f
  | .match_ _ bs => skipsBranch ν bs
  | .letFormat f _ g => skipsB ν f && skipsB ν g
  | .monadSeq f g => skipsB ν f && skipsB ν g
  | .fail | .endOfInput | .byte _ | .skipRemainder => false
  | _ => true
def skipsAny (ν : Nat → Bool) : List Format → Bool
  | [] => false
  | f :: fs => skipsB ν f || skipsAny ν fs
def skipsAll (ν : Nat → Bool) : List Format → Bool
  | [] => true
  | f :: fs => skipsB ν f && skipsAll ν fs
def skipsBranch (ν : Nat → Bool) : List (Pattern × Format) → Bool
  | [] => false
  | (_, f) :: fs => skipsB ν f || skipsBranch ν fs
end

mutual
/-- the bytes the format may begin with -/
def startsB (σ : Nat → ByteSet) (ν : Nat → Bool) : Format → ByteSet
  | .itemVar level _ _ => σ level
  | .align n => if n = 1 then .empty else .full
  | .byte bs => bs
  | .variant _ f | .repeat_ f | .repeat1 f | .repeatCount _ f | .repeatBetween _ _ f | .repeatUntilLast _ f
  | .repeatUntilSeq _ f | .accumUntil _ _ _ _ f | .forEach _ _ f | .maybe _ f | .peek f | .map f _ | .where_ f _ _
  | .let_ _ _ f | .dynamic _ _ _ f | .hint f | .liftedSome f | .letView _ f | .enforce f | .permit f _ => startsB σ ν f
  | .union fs => startsAny σ ν fs
  | .unionNondet fs => startsAny σ ν fs
  | .tuple fs => startsSeq σ ν fs
  | .sequence fs => startsSeq σ ν fs
  | .match_ _ bs => startsBranch σ ν bs
  | .letFormat f _ g => if skipsB ν f then (startsB σ ν f).union (startsB σ ν g) else startsB σ ν f
  | .monadSeq f g => if skipsB ν f then (startsB σ ν f).union (startsB σ ν g) else startsB σ ν f
  | .slice _ _ | .bits _ | .apply _ | .skipRemainder => .full
  | _ => .empty
def startsAny (σ : Nat → ByteSet) (ν : Nat → Bool) : List Format → ByteSet
  | [] => .empty
  | f :: fs => (startsB σ ν f).union (startsAny σ ν fs)
def startsSeq (σ : Nat → ByteSet) (ν : Nat → Bool) : List Format → ByteSet
  | [] => .empty
  | f :: fs => if skipsB ν f then (startsB σ ν f).union (startsSeq σ ν fs) else startsB σ ν f
def startsBranch (σ : Nat → ByteSet) (ν : Nat → Bool) : List (Pattern × Format) → ByteSet
  | [] => .empty
  | (_, f) :: fs => (startsB σ ν f).union (startsBranch σ ν fs)
end

/-- the bytes that announce the format -/
def announcesB (σ : Nat → ByteSet) (ν : Nat → Bool) (F : ByteSet) (f : Format) : ByteSet :=
  if skipsB ν f then (startsB σ ν f).union F else startsB σ ν f

/-- every member of the one is a member of the other -/
def subset (a b : ByteSet) : Bool := a.union b == b

theorem subset_iff {a b : ByteSet} : subset a b = true ↔ ∀ x, a.contains x = true → b.contains x = true := by
  unfold subset
  rw [beq_iff_eq, ByteSet.C01_ext]
  constructor
  · intro h x hx
    rw [← h]
    exact (ByteSet.C01_contains_union _ _ _).2 (.inl hx)
  · intro h x
    have := ByteSet.C01_contains_union a b x
    have := h x
    cases ha : a.contains x <;> cases hb : b.contains x <;> simp_all

/-- pairwise disjoint -/
def disjointAll : List ByteSet → Bool
  | [] => true
  | a :: as => as.all (fun b => a.isDisjoint b) && disjointAll as

/-- one byte decides every choice -/
structure Tables where
  σ : List ByteSet
  ν : List Bool
  φ : List ByteSet

def Tables.starts (T : Tables) (i : Nat) : ByteSet := T.σ.getD i .full
def Tables.skips (T : Tables) (i : Nat) : Bool := T.ν.getD i true
def Tables.follow (T : Tables) (i : Nat) : ByteSet := T.φ.getD i .empty

mutual
def check (m : Module) (T : Tables) (tr sm : Bool) (F : ByteSet) : Format → Bool
  | .itemVar level _ views => views.all isVar && subset F (T.follow level)
  | .variant _ f | .maybe _ f | .map f _ | .where_ f _ _ | .let_ _ _ f | .hint f | .liftedSome f | .letView _ f | .enforce f
  | .permit f _ => check m T tr sm F f
  | .union fs => checkEach m T tr sm F fs && disjointAll (fs.map (announcesB T.starts T.skips F))
  | .unionNondet fs => checkEach m T tr sm F fs
  | .tuple fs => checkFields m T tr sm F fs
  | .sequence fs => checkFields m T tr sm F fs
  | .repeat_ f => !skipsB T.skips f && (startsB T.starts T.skips f).isDisjoint F &&
      check m T tr sm ((startsB T.starts T.skips f).union F) f
  | .repeat1 f => !skipsB T.skips f && (startsB T.starts T.skips f).isDisjoint F &&
      check m T tr sm ((startsB T.starts T.skips f).union F) f
  | .repeatCount e f => countOk e && check m T tr sm ((startsB T.starts T.skips f).union F) f
  | .repeatUntilLast _ f => check m T tr sm ((startsB T.starts T.skips f).union F) f
  | .repeatUntilSeq _ f => check m T tr sm ((startsB T.starts T.skips f).union F) f
  | .accumUntil _ _ _ _ f => check m T tr sm ((startsB T.starts T.skips f).union F) f
  | .forEach _ _ f => (match f.matchBounds m with | .ok b => b.max != some 0 | .panic => true) &&
      check m T tr sm ((startsB T.starts T.skips f).union F) f
  | .peek f => check m T tr sm .full f
  | .slice e f => sm && (match e.bounds with | .ok b => b.min == 0 && b.asExact.isNone | .panic => true) &&
      check m T tr sm .full f
  | .align _ => sm
  | .withRelativeOffset _ _ f => sm && check m T tr sm .full f
  | .match_ _ bs => checkBranches m T tr sm F bs
  | .letFormat f _ g => check m T tr sm (announcesB T.starts T.skips F g) f && check m T tr sm F g
  | .monadSeq f g => check m T tr sm (announcesB T.starts T.skips F g) f && check m T tr sm F g
  | .captureBytes v _ => isVar v
  | .reifyView v => isVar v
  | .decodeBytes _ f => !sm && check m T tr sm (if tr then .full else .empty) f
  | .parseFromView v f => !sm && isVar v && check m T tr sm .full f
  | .repeatBetween _ _ _ | .peekNot _ | .bits _ | .dynamic _ _ _ _ | .apply _ | .readArray _ _ _ => false
  | .fail | .endOfInput | .byte _ | .compute _ | .pos | .skipRemainder | .liftedNone | .phantom _ => true
def checkEach (m : Module) (T : Tables) (tr sm : Bool) (F : ByteSet) : List Format → Bool
  | [] => true
  | f :: fs => check m T tr sm F f && checkEach m T tr sm F fs
def checkFields (m : Module) (T : Tables) (tr sm : Bool) (F : ByteSet) : List Format → Bool
  | [] => true
  | f :: fs => check m T tr sm (announcesB T.starts T.skips F (.tuple fs)) f && checkFields m T tr sm F fs
def checkBranches (m : Module) (T : Tables) (tr sm : Bool) (F : ByteSet) : List (Pattern × Format) → Bool
  | [] => true
  | (_, f) :: fs => check m T tr sm F f && checkBranches m T tr sm F fs
end

/-- the tables are right for the items -/
def checkTables (m : Module) (T : Tables) : Bool :=
  (List.range m.items.length).all fun i =>
    match m.items[i]? with
    | some it => (!skipsB T.skips it.format || T.skips i) && subset (startsB T.starts T.skips it.format) (T.starts i)
    | none => true

/-- the items are predictive -/
def checkItems (m : Module) (T : Tables) (tr sm : Bool) : Bool :=
  (List.range m.items.length).all fun i =>
    match m.items[i]? with
    | some it => check m T tr sm (T.follow i) it.format
    | none => true

/-! ## Soundness -/

variable {m : Module} {T : Tables} {tr sm : Bool}

theorem checkTables_get (h : checkTables m T = true) {i : Nat} {it : Item} (hi : m.items[i]? = some it) :
    (skipsB T.skips it.format = true → T.skips i = true) ∧
      ∀ b, (startsB T.starts T.skips it.format).contains b = true → (T.starts i).contains b = true := by
  have := List.all_eq_true.1 h i (List.mem_range.2 (List.getElem?_eq_some_iff.1 hi).1)
  rw [hi] at this
  simp only [Bool.and_eq_true, Bool.or_eq_true, Bool.not_eq_true'] at this
  refine ⟨fun h => this.1.resolve_left (fun h' => by rw [h] at h'; cases h'), subset_iff.1 this.2⟩

theorem skipsAny_mem {ν : Nat → Bool} {fs : List Format} {f : Format} (h : f ∈ fs) (hf : skipsB ν f = true) :
    skipsAny ν fs = true := by
  induction fs with
  | nil => cases h
  | cons g fs ih =>
    simp only [skipsAny, Bool.or_eq_true]
    rcases List.mem_cons.1 h with rfl | h
    · exact .inl hf
    · exact .inr (ih h)

theorem skipsAll_mem {ν : Nat → Bool} {fs : List Format} (h : ∀ f ∈ fs, skipsB ν f = true) : skipsAll ν fs = true := by
  induction fs with
  | nil => rfl
  | cons g fs ih =>
    simp only [skipsAll, Bool.and_eq_true]
    exact ⟨h _ List.mem_cons_self, ih fun f hf => h f (List.mem_cons_of_mem _ hf)⟩

theorem skipsBranch_mem {ν : Nat → Bool} {fs : List (Pattern × Format)} {p : Pattern × Format} (h : p ∈ fs)
    (hf : skipsB ν p.2 = true) : skipsBranch ν fs = true := by
  induction fs with
  | nil => cases h
  | cons g fs ih =>
    obtain ⟨q, g⟩ := g
    simp only [skipsBranch, Bool.or_eq_true]
    rcases List.mem_cons.1 h with rfl | h
    · exact .inl hf
    · exact .inr (ih h)

theorem skips_sound (hT : checkTables m T = true) {f : Format} (h : Skips m f) : skipsB T.skips f = true := by
  induction h with
  | itemVar hi _ ih => simp only [skipsB]; exact (checkTables_get hT hi).1 ih
  | union h _ ih => simp only [skipsB]; exact skipsAny_mem h ih
  | unionNondet h _ ih => simp only [skipsB]; exact skipsAny_mem h ih
  | tuple _ ih => simp only [skipsB]; exact skipsAll_mem ih
  | sequence _ ih => simp only [skipsB]; exact skipsAll_mem ih
  | @repeatCount_zero e f h =>
    simp only [skipsB, Bool.or_eq_true]
    left
    cases hb : e.bounds with
    | ok b => simp [h b hb]
    | panic => rfl
  | repeatCount_some _ ih => simp only [skipsB, Bool.or_eq_true]; exact .inr ih
  | match_ h _ ih => simp only [skipsB]; exact skipsBranch_mem h ih
  | letFormat _ _ ih1 ih2 => simp only [skipsB, Bool.and_eq_true]; exact ⟨ih1, ih2⟩
  | monadSeq _ _ ih1 ih2 => simp only [skipsB, Bool.and_eq_true]; exact ⟨ih1, ih2⟩
  | variant _ ih | repeat1 _ ih | repeatUntilLast _ ih | repeatUntilSeq _ ih | map _ ih | where_ _ ih | let_ _ ih
  | dynamic _ ih | hint _ ih | liftedSome _ ih | letView _ ih | enforce _ ih | permit _ ih => simp only [skipsB]; exact ih
  | _ => simp only [skipsB]

theorem startsAny_mem {σ : Nat → ByteSet} {ν : Nat → Bool} {fs : List Format} {f : Format} {b : UInt8} (h : f ∈ fs)
    (hf : (startsB σ ν f).contains b = true) : (startsAny σ ν fs).contains b = true := by
  induction fs with
  | nil => cases h
  | cons g fs ih =>
    simp only [startsAny, ByteSet.C01_contains_union]
    rcases List.mem_cons.1 h with rfl | h
    · exact .inl hf
    · exact .inr (ih h)

theorem startsBranch_mem {σ : Nat → ByteSet} {ν : Nat → Bool} {fs : List (Pattern × Format)} {p : Pattern × Format} {b : UInt8}
    (h : p ∈ fs) (hf : (startsB σ ν p.2).contains b = true) : (startsBranch σ ν fs).contains b = true := by
  induction fs with
  | nil => cases h
  | cons g fs ih =>
    obtain ⟨q, g⟩ := g
    simp only [startsBranch, ByteSet.C01_contains_union]
    rcases List.mem_cons.1 h with rfl | h
    · exact .inl hf
    · exact .inr (ih h)

theorem startsSeq_mem {σ : Nat → ByteSet} {ν : Nat → Bool} {pre post : List Format} {f : Format} {b : UInt8}
    (h : ∀ g ∈ pre, skipsB ν g = true) (hf : (startsB σ ν f).contains b = true) :
    (startsSeq σ ν (pre ++ f :: post)).contains b = true := by
  induction pre with
  | nil =>
    simp only [List.nil_append, startsSeq]
    split
    · exact (ByteSet.C01_contains_union _ _ _).2 (.inl hf)
    · exact hf
  | cons g pre ih =>
    simp only [List.cons_append, startsSeq, h g List.mem_cons_self, if_true]
    exact (ByteSet.C01_contains_union _ _ _).2 (.inr (ih fun g hg => h g (List.mem_cons_of_mem _ hg)))

theorem starts_sound (hT : checkTables m T = true) {f : Format} {b : UInt8} (h : Starts m f b) :
    (startsB T.starts T.skips f).contains b = true := by
  induction h with
  | itemVar hi _ ih => simp only [startsB]; exact (checkTables_get hT hi).2 _ ih
  | align h => simp only [startsB, if_neg h]; exact ByteSet.C01_contains_full _
  | byte h => simp only [startsB]; exact h
  | union h _ ih => simp only [startsB]; exact startsAny_mem h ih
  | unionNondet h _ ih => simp only [startsB]; exact startsAny_mem h ih
  | tuple he h _ ih => subst he; simp only [startsB]; exact startsSeq_mem (fun g hg => skips_sound hT (h g hg)) ih
  | sequence he h _ ih => subst he; simp only [startsB]; exact startsSeq_mem (fun g hg => skips_sound hT (h g hg)) ih
  | match_ h _ ih => simp only [startsB]; exact startsBranch_mem h ih
  | letFormat _ ih | monadSeq _ ih =>
    simp only [startsB]
    split
    · exact (ByteSet.C01_contains_union _ _ _).2 (.inl ih)
    · exact ih
  | letFormat_skip h _ ih | monadSeq_skip h _ ih =>
    simp only [startsB, skips_sound hT h, if_true]
    exact (ByteSet.C01_contains_union _ _ _).2 (.inr ih)
  | slice | bits | apply | skipRemainder => simp only [startsB]; exact ByteSet.C01_contains_full _
  | variant _ ih | repeat_ _ ih | repeat1 _ ih | repeatCount _ ih | repeatBetween _ ih | repeatUntilLast _ ih
  | repeatUntilSeq _ ih | accumUntil _ ih | forEach _ ih | maybe _ ih | peek _ ih | map _ ih | where_ _ ih | let_ _ ih
  | dynamic _ ih | hint _ ih | liftedSome _ ih | letView _ ih | enforce _ ih | permit _ ih => simp only [startsB]; exact ih

theorem announces_sound (hT : checkTables m T = true) {f : Format} {b : UInt8} {F : UInt8 → Prop} {F' : ByteSet}
    (hF : ∀ b, F b → F'.contains b = true) (h : Announces m F f b) :
    (announcesB T.starts T.skips F' f).contains b = true := by
  unfold announcesB
  rcases h with h | ⟨h, h'⟩
  · split
    · exact (ByteSet.C01_contains_union _ _ _).2 (.inl (starts_sound hT h))
    · exact starts_sound hT h
  · rw [if_pos (skips_sound hT h)]
    exact (ByteSet.C01_contains_union _ _ _).2 (.inr (hF b h'))

theorem disjointAll_get {l : List ByteSet} (h : disjointAll l = true) : ∀ (i j : Nat) a c, i ≠ j → l[i]? = some a →
    l[j]? = some c → ∀ b, ¬ (a.contains b = true ∧ c.contains b = true) := by
  induction l with
  | nil => intro i j a c _ h; simp at h
  | cons x l ih =>
    simp only [disjointAll, Bool.and_eq_true, List.all_eq_true] at h
    have hx : ∀ (j : Nat) c, l[j]? = some c → ∀ b, ¬ (x.contains b = true ∧ c.contains b = true) := fun j c hc b hb =>
      (ByteSet.C01_isDisjoint _ _).1 (h.1 c (List.mem_of_getElem? hc)) ⟨b, hb⟩
    intro i j a c hij hi hj b hb
    cases i with
    | zero =>
      cases j with
      | zero => omega
      | succ j =>
        simp at hi hj
        subst hi
        exact hx j c hj b hb
    | succ i =>
      cases j with
      | zero =>
        simp at hi hj
        subst hj
        exact hx i a hi b ⟨hb.2, hb.1⟩
      | succ j => exact ih h.2 i j a c (by omega) (by simpa using hi) (by simpa using hj) b hb

/-- what the table says about the followers of an item -/
def Φ (T : Tables) (i : Nat) (b : UInt8) : Prop := (T.follow i).contains b = true

theorem full_of {F : UInt8 → Prop} : ∀ b, F b → ByteSet.full.contains b = true := fun b _ => ByteSet.C01_contains_full b

theorem round_of (hT : checkTables m T = true) {f : Format} {F : UInt8 → Prop} {F' : ByteSet}
    (hF : ∀ b, F b → F'.contains b = true) : ∀ b, Starts m f b ∨ F b →
      ((startsB T.starts T.skips f).union F').contains b = true := fun b h =>
  (ByteSet.C01_contains_union _ _ _).2 (h.imp (starts_sound hT) (hF b))

theorem apart_of (hT : checkTables m T = true) {f : Format} {F : UInt8 → Prop} {F' : ByteSet}
    (hF : ∀ b, F b → F'.contains b = true) (h : (startsB T.starts T.skips f).isDisjoint F' = true) :
    ∀ b, ¬ (Starts m f b ∧ F b) := fun b hb =>
  (ByteSet.C01_isDisjoint _ _).1 h ⟨b, starts_sound hT hb.1, hF b hb.2⟩

mutual
theorem check_sound (hT : checkTables m T = true) : ∀ (f : Format) {F : UInt8 → Prop} {F' : ByteSet},
    (∀ b, F b → F'.contains b = true) → check m T tr sm F' f = true → f.Predictive m (Φ T) tr sm F
  | .itemVar level _ views, F, F', hF, h => by
    simp only [check, Bool.and_eq_true, List.all_eq_true] at h
    simp only [Format.Predictive]
    exact ⟨fun v hv => isVar_iff (h.1 v hv), fun b hb => subset_iff.1 h.2 b (hF b hb)⟩
  | .variant _ f, F, F', hF, h | .maybe _ f, F, F', hF, h | .map f _, F, F', hF, h | .where_ f _ _, F, F', hF, h
  | .let_ _ _ f, F, F', hF, h | .hint f, F, F', hF, h | .liftedSome f, F, F', hF, h | .letView _ f, F, F', hF, h
  | .enforce f, F, F', hF, h | .permit f _, F, F', hF, h => by
    simp only [check] at h
    simp only [Format.Predictive]
    exact check_sound hT f hF h
  | .union fs, F, F', hF, h => by
    simp only [check, Bool.and_eq_true] at h
    simp only [Format.Predictive]
    refine ⟨checkEach_sound hT fs hF h.1, fun i j f g b hij hi hj hb => ?_⟩
    exact disjointAll_get h.2 i j _ _ hij (by simp [hi]) (by simp [hj]) b
      ⟨announces_sound hT hF hb.1, announces_sound hT hF hb.2⟩
  | .unionNondet fs, F, F', hF, h => by
    simp only [check] at h
    simp only [Format.Predictive]
    exact checkEach_sound hT fs hF h
  | .tuple fs, F, F', hF, h => by
    simp only [check] at h
    simp only [Format.Predictive]
    exact checkFields_sound hT fs hF h
  | .sequence fs, F, F', hF, h => by
    simp only [check] at h
    simp only [Format.Predictive]
    exact checkFields_sound hT fs hF h
  | .repeat_ f, F, F', hF, h | .repeat1 f, F, F', hF, h => by
    simp only [check, Bool.and_eq_true, Bool.not_eq_true'] at h
    simp only [Format.Predictive]
    exact ⟨fun hs => (by have := skips_sound hT hs; rw [h.1.1] at this; cases this), apart_of hT hF h.1.2,
      check_sound hT f (round_of hT hF) h.2⟩
  | .repeatCount e f, F, F', hF, h => by
    simp only [check, Bool.and_eq_true] at h
    simp only [Format.Predictive]
    exact ⟨countOk_known h.1, check_sound hT f (round_of hT hF) h.2⟩
  | .repeatUntilLast _ f, F, F', hF, h | .repeatUntilSeq _ f, F, F', hF, h | .accumUntil _ _ _ _ f, F, F', hF, h => by
    simp only [check] at h
    simp only [Format.Predictive]
    exact check_sound hT f (round_of hT hF) h
  | .forEach _ _ f, F, F', hF, h => by
    simp only [check, Bool.and_eq_true] at h
    simp only [Format.Predictive]
    refine ⟨fun bd hb => ?_, check_sound hT f (round_of hT hF) h.2⟩
    have := h.1
    rw [hb] at this
    simpa using this
  | .peek f, F, F', hF, h => by
    simp only [check] at h
    simp only [Format.Predictive]
    exact check_sound hT f full_of h
  | .slice e f, F, F', hF, h => by
    simp only [check, Bool.and_eq_true] at h
    simp only [Format.Predictive]
    refine ⟨h.1.1, fun bd hb => ?_, check_sound hT f full_of h.2⟩
    have := h.1.2
    rw [hb] at this
    simpa using this
  | .align _, F, F', hF, h => by
    simp only [check] at h
    simp only [Format.Predictive]
    exact h
  | .withRelativeOffset _ _ f, F, F', hF, h => by
    simp only [check, Bool.and_eq_true] at h
    simp only [Format.Predictive]
    exact ⟨h.1, check_sound hT f full_of h.2⟩
  | .match_ _ bs, F, F', hF, h => by
    simp only [check] at h
    simp only [Format.Predictive]
    exact checkBranches_sound hT bs hF h
  | .letFormat f _ g, F, F', hF, h | .monadSeq f g, F, F', hF, h => by
    simp only [check, Bool.and_eq_true] at h
    simp only [Format.Predictive]
    exact ⟨check_sound hT f (fun b hb => announces_sound hT hF hb) h.1, check_sound hT g hF h.2⟩
  | .captureBytes v _, F, F', hF, h | .reifyView v, F, F', hF, h => by
    simp only [check] at h
    simp only [Format.Predictive]
    exact isVar_iff h
  | .decodeBytes _ f, F, F', hF, h => by
    simp only [check, Bool.and_eq_true, Bool.not_eq_true'] at h
    simp only [Format.Predictive]
    exact ⟨h.1, check_sound hT f (fun b hb => by rw [if_pos hb]; exact ByteSet.C01_contains_full _) h.2⟩
  | .parseFromView v f, F, F', hF, h => by
    simp only [check, Bool.and_eq_true, Bool.not_eq_true'] at h
    simp only [Format.Predictive]
    exact ⟨h.1.1, isVar_iff h.1.2, check_sound hT f full_of h.2⟩
  | .repeatBetween _ _ _, F, F', hF, h | .peekNot _, F, F', hF, h | .bits _, F, F', hF, h | .dynamic _ _ _ _, F, F', hF, h
  | .apply _, F, F', hF, h | .readArray _ _ _, F, F', hF, h => by simp [check] at h
  | .fail, F, F', hF, h | .endOfInput, F, F', hF, h | .byte _, F, F', hF, h | .compute _, F, F', hF, h | .pos, F, F', hF, h
  | .skipRemainder, F, F', hF, h | .liftedNone, F, F', hF, h | .phantom _, F, F', hF, h => by simp only [Format.Predictive]
theorem checkEach_sound (hT : checkTables m T = true) : ∀ (fs : List Format) {F : UInt8 → Prop} {F' : ByteSet},
    (∀ b, F b → F'.contains b = true) → checkEach m T tr sm F' fs = true → Format.EachPredictive m (Φ T) tr sm F fs
  | [], F, F', hF, h => by simp only [Format.EachPredictive]
  | f :: fs, F, F', hF, h => by
    simp only [checkEach, Bool.and_eq_true] at h
    simp only [Format.EachPredictive]
    exact ⟨check_sound hT f hF h.1, checkEach_sound hT fs hF h.2⟩
theorem checkFields_sound (hT : checkTables m T = true) : ∀ (fs : List Format) {F : UInt8 → Prop} {F' : ByteSet},
    (∀ b, F b → F'.contains b = true) → checkFields m T tr sm F' fs = true → Format.FieldsPredictive m (Φ T) tr sm F fs
  | [], F, F', hF, h => by simp only [Format.FieldsPredictive]
  | f :: fs, F, F', hF, h => by
    simp only [checkFields, Bool.and_eq_true] at h
    simp only [Format.FieldsPredictive]
    exact ⟨check_sound hT f (fun b hb => announces_sound hT hF hb) h.1, checkFields_sound hT fs hF h.2⟩
theorem checkBranches_sound (hT : checkTables m T = true) : ∀ (fs : List (Pattern × Format)) {F : UInt8 → Prop} {F' : ByteSet},
    (∀ b, F b → F'.contains b = true) → checkBranches m T tr sm F' fs = true →
      Format.BranchesPredictive m (Φ T) tr sm F fs
  | [], F, F', hF, h => by simp only [Format.BranchesPredictive]
  | (_, f) :: fs, F, F', hF, h => by
    simp only [checkBranches, Bool.and_eq_true] at h
    simp only [Format.BranchesPredictive]
    exact ⟨check_sound hT f hF h.1, checkBranches_sound hT fs hF h.2⟩
end

/-- the module -/
theorem checkItems_sound (hT : checkTables m T = true) (h : checkItems m T tr sm = true) : m.Predictive (Φ T) tr sm := by
  intro i it hi
  have := List.all_eq_true.1 h i (List.mem_range.2 (List.getElem?_eq_some_iff.1 hi).1)
  rw [hi] at this
  exact check_sound hT it.format (fun _ h => h) this

end Predictive
end Doodle
