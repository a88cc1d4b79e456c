import Verif.Lemmas.TypeHeap

/-!
C65: the analyses of the types that the generator defines (src/codegen/rust_ast/analysis.rs and
src/codegen/rust_ast/analysis/heap_optimize.rs): which of them derive `Copy`, how much room they take, what is put into a `Box`.
-/

namespace Doodle
namespace TypeAnalysis

/-! A sample of definitions: `struct 0 { u16, u32, Vec<u8> }`, `struct 1 { u8, u32 }`, `enum 2 { A, B(1), C(0, Option<1>) }`,
`enum 3 { A, B(u8, 1) }`, `struct 4 { (1, u64), &[u8] }`. -/

def sample : List TypeDef := [
  .struct [.prim (.unsigned .b16), .prim (.unsigned .b32), .vec (.prim (.unsigned .b8))],
  .struct [.prim (.unsigned .b8), .prim (.unsigned .b32)],
  .enum [.unit, .tuple [.localDef 1], .tuple [.localDef 0, .option (.localDef 1)]],
  .enum [.unit, .tuple [.prim (.unsigned .b8), .localDef 1]],
  .struct [.tuple [.localDef 1, .prim (.unsigned .b64)], .borrow false (.rawSlice (.prim (.unsigned .b8)))]]

theorem sample_generated : AllGenerated sample := by
  intro i d h
  match i, h with
  | 0, h => cases h; exact ⟨trivial, trivial, trivial, trivial⟩
  | 1, h => cases h; exact ⟨trivial, trivial, trivial⟩
  | 2, h =>
    cases h
    refine ⟨(fun h => nomatch h), fun ts hts => ?_⟩
    simp only [List.mem_cons, RVariant.tuple.injEq, List.not_mem_nil, or_false, reduceCtorEq, false_or] at hts
    rcases hts with rfl | rfl
    · exact ⟨(by change 1 < 2; omega), trivial⟩
    · exact ⟨(by change 0 < 2; omega), (by change 1 < 2; omega), trivial⟩
  | 3, h =>
    cases h
    refine ⟨(fun h => nomatch h), fun ts hts => ?_⟩
    simp only [List.mem_cons, RVariant.tuple.injEq, List.not_mem_nil, or_false, reduceCtorEq, false_or] at hts
    subst hts
    exact ⟨trivial, (by change 1 < 3; omega), trivial⟩
  | 4, h => cases h; exact ⟨⟨(by change 1 < 4; omega), trivial, trivial⟩, rfl, trivial⟩
  | _ + 5, h => cases h

theorem sample_noNested : ∀ d ∈ sample, d.NoNested := by
  intro d h
  simp only [sample, List.mem_cons, List.not_mem_nil, or_false] at h
  rcases h with rfl | rfl | rfl | rfl | rfl
  · exact ⟨trivial, trivial, trivial, trivial⟩
  · exact ⟨trivial, trivial, trivial⟩
  · intro ts hts
    simp only [List.mem_cons, RVariant.tuple.injEq, List.not_mem_nil, or_false, reduceCtorEq, false_or] at hts
    rcases hts with rfl | rfl
    · exact ⟨trivial, trivial⟩
    · exact ⟨trivial, trivial, trivial⟩
  · intro ts hts
    simp only [List.mem_cons, RVariant.tuple.injEq, List.not_mem_nil, or_false, reduceCtorEq, false_or] at hts
    subst hts
    exact ⟨trivial, trivial, trivial⟩
  · exact ⟨⟨trivial, trivial, trivial⟩, trivial, trivial⟩

/-! ### The table -/

/-- Whatever was asked before, in whatever order, an answer that is given with the help of the table of answers is the one that is
given without it, and so is a failure: for niches, sizes, alignments, `Copy` and boxing, any definitions and any strategy.  The
condition is that the analysis without the table ends within `n` levels of references. -/
theorem C65_table (defs : List TypeDef) (st : Strategy) (c : Cache) (hc : Reachable defs st c) (n : Nat) (d : TypeDef) :
    (d.niches (Ctx.plain defs st n) ≠ .fuel → answer (d.niches (Ctx.cached defs st n) c) = d.niches (Ctx.plain defs st n)) ∧
    (d.sizeHint (Ctx.plain defs st n) ≠ .fuel → answer (d.sizeHint (Ctx.cached defs st n) c) = d.sizeHint (Ctx.plain defs st n)) ∧
    (d.alignHint (Ctx.plain defs st n) ≠ .fuel → answer (d.alignHint (Ctx.cached defs st n) c) = d.alignHint (Ctx.plain defs st n)) ∧
    (d.copyHint (Ctx.plain defs st n) ≠ .fuel → answer (d.copyHint (Ctx.cached defs st n) c) = d.copyHint (Ctx.plain defs st n)) ∧
    (d.heapHint (Ctx.plain defs st n) st ≠ .fuel →
      answer (d.heapHint (Ctx.cached defs st n) st c) = d.heapHint (Ctx.plain defs st n) st) := by
  have V := reachable_valid hc
  have T := table_ctx defs st n
  have A := at_ctx defs st n
  refine ⟨fun h => ?_, fun h => ?_, fun h => ?_, fun h => ?_, fun h => ?_⟩
  · have e : d.niches (stepsCtx defs st) n = _ := sim_dNiches A d
    rw [← e] at h ⊢; exact answer_eq (sim_dNiches T d) V h
  · have e : d.sizeHint (stepsCtx defs st) n = _ := sim_dSize A d
    rw [← e] at h ⊢; exact answer_eq (sim_dSize T d) V h
  · have e : d.alignHint (stepsCtx defs st) n = _ := sim_dAlign A d
    rw [← e] at h ⊢; exact answer_eq (sim_dAlign T d) V h
  · have e : d.copyHint (stepsCtx defs st) n = _ := sim_dCopy A d
    rw [← e] at h ⊢; exact answer_eq (sim_dCopy T d) V h
  · have e : d.heapHint (stepsCtx defs st) st n = _ := sim_dHeap A st d
    rw [← e] at h ⊢; exact answer_eq (sim_dHeap T st d) V h

/-- a table that is not empty is reached by asking for the size of the last definition -/
example : ∃ c, Reachable sample ⟨none, none⟩ c ∧ (c 1).size = some 8 ∧ (c 1).align = some 4 :=
  ⟨_, .asked .empty (.size (d := sample[4]) (n := 5) (r := 24) (c' := _) rfl), rfl, rfl⟩

/-- The answers do not depend on how many levels are allowed, once they are enough. -/
theorem C65_levels (defs : List TypeDef) (st : Strategy) (n m : Nat) (h : n ≤ m) (d : TypeDef) :
    (d.sizeHint (Ctx.plain defs st n) ≠ .fuel → d.sizeHint (Ctx.plain defs st m) = d.sizeHint (Ctx.plain defs st n)) ∧
    (d.copyHint (Ctx.plain defs st n) ≠ .fuel → d.copyHint (Ctx.plain defs st m) = d.copyHint (Ctx.plain defs st n)) ∧
    (d.heapHint (Ctx.plain defs st n) st ≠ .fuel → d.heapHint (Ctx.plain defs st m) st = d.heapHint (Ctx.plain defs st n) st) :=
  ⟨sim_dSize (plain_le defs st h) d, sim_dCopy (plain_le defs st h) d, sim_dHeap (plain_le defs st h) st d⟩

example : (sample[2].sizeHint (Ctx.plain sample ⟨none, none⟩ 2)) = .ok 56 := rfl

/-! ### `Copy` -/

/-- Of definitions that the generator makes, each is given `Copy` exactly when Rust accepts that it derives it: the analysis ends
and answers, whatever was asked before. -/
theorem C65_copy (defs : List TypeDef) (h : AllGenerated defs) (st : Strategy) (c : Cache) (hc : Reachable defs st c)
    (i : Nat) (d : TypeDef) (hd : defs[i]? = some d) (n : Nat) (hn : i ≤ n) :
    ∃ b, answer (d.copyHint (Ctx.cached defs st n) c) = .ok b ∧ (b = true ↔ d.MayDeriveCopy defs) := by
  have hl : i < defs.length := (List.getElem?_eq_some_iff.1 hd).1
  obtain ⟨b, h1, h2⟩ := good_dCopy (good_plain st h n i hn (by omega)) d (h i d hd)
  refine ⟨b, ?_, h2⟩
  rw [(C65_table defs st c hc n d).2.2.2.1 (by rw [h1]; exact fun h => nomatch h), h1]

example : answer (sample[3].copyHint (Ctx.cached sample ⟨none, none⟩ 5) emptyCache) = .ok true := rfl
example : answer (sample[2].copyHint (Ctx.cached sample ⟨none, none⟩ 5) emptyCache) = .ok false := rfl
example : sample[3].MayDeriveCopy sample := by
  obtain ⟨b, h1, h2⟩ := C65_copy sample sample_generated ⟨none, none⟩ emptyCache .empty 3 _ rfl 5 (by omega)
  cases h1
  exact h2.1 rfl

mutual
theorem canBeCopy_sound (defs : List TypeDef) : ∀ t : RType, t.canBeCopy = .ok true → IsCopy defs t
  | .prim _, _ => .prim
  | .signed _, _ => .signed
  | .localDef _, h => by cases h
  | .external, h => by cases h
  | .vec _, h => by cases h
  | .rawSlice _, h => by cases h
  | .option t, h => .option (canBeCopy_sound defs t h)
  | .result t e, h => by
    unfold RType.canBeCopy at h
    obtain ⟨b, h1, h2⟩ := Panicky.bind_eq_ok.1 h
    cases b with
    | true => exact .result (canBeCopy_sound defs t h1) (canBeCopy_sound defs e h2)
    | false => cases h2
  | .borrow true _, h => by cases h
  | .borrow false _, _ => .shared
  | .phantomData _, _ => .phantomData
  | .tuple ts, h => .tuple (canAllBeCopy_sound defs ts h)
  | .verbatim, h => by cases h
  | .readArray, _ => .readArray
  | .viewObject, _ => .viewObject

theorem canAllBeCopy_sound (defs : List TypeDef) : ∀ ts : List RType, RType.canAllBeCopy ts = .ok true → ∀ t ∈ ts, IsCopy defs t
  | [], _ => fun _ h => nomatch h
  | t :: ts, h => by
    unfold RType.canAllBeCopy at h
    obtain ⟨b, h1, h2⟩ := Panicky.bind_eq_ok.1 h
    cases b with
    | false => cases h2
    | true =>
      have ih1 := canBeCopy_sound defs t h1
      have ih2 := canAllBeCopy_sound defs ts h2
      intro u hu
      rcases List.mem_cons.1 hu with rfl | hu
      · exact ih1
      · exact ih2 u hu
end

/-- Looking at a definition alone, without those it refers to, never gives `Copy` to one that cannot derive it. -/
theorem C65_local_copy (defs : List TypeDef) (d : TypeDef) (h : d.canBeCopy = .ok true) : d.MayDeriveCopy defs := by
  cases d with
  | struct fs => exact canAllBeCopy_sound defs fs h
  | enum vs =>
    intro t ht
    obtain ⟨v, hv, ht⟩ := parts_enum.1 ht
    have : ∀ vs : List RVariant, RVariant.canAllBeCopy vs = .ok true → ∀ v ∈ vs, v.canBeCopy = .ok true := by
      intro vs
      induction vs with
      | nil => exact fun _ _ h => nomatch h
      | cons w ws ih =>
        intro h v hv
        obtain ⟨b, h1, h2⟩ := Panicky.bind_eq_ok.1 h
        cases b with
        | false => cases h2
        | true =>
          rcases List.mem_cons.1 hv with rfl | hv
          · exact h1
          · exact ih h2 v hv
    have := this vs h v hv
    cases v with
    | unit => cases ht
    | tuple ts => exact canAllBeCopy_sound defs ts this t ht

example : sample[1].canBeCopy = .ok true := rfl

/-- Looking at a definition alone is not enough to find all: a reference to another definition counts as not `Copy`. -/
theorem C65_local_copy_refuted : ¬ ∀ (defs : List TypeDef), AllGenerated defs → ∀ d ∈ defs, d.MayDeriveCopy defs → d.canBeCopy = .ok true := by
  intro H
  have := H sample sample_generated sample[3] (by simp [sample]) (by
    obtain ⟨b, h1, h2⟩ := C65_copy sample sample_generated ⟨none, none⟩ emptyCache .empty 3 _ rfl 5 (by omega)
    cases h1
    exact h2.1 rfl)
  cases this

/-! ### Sizes -/

/-- Rounding up: for an alignment that is a power of two, and a sum that fits a word, `aligned_size` is the smallest multiple of
the alignment that is not less than the size. -/
theorem C65_aligned (size k : Nat) (hk : k ≤ 63) (h : size + 2 ^ k ≤ usizeMax) : RoundedUp size (2 ^ k) (alignedSize size (2 ^ k)) :=
  aligned_rounded size k hk h

example : alignedSize 13 8 = 16 ∧ alignedSize 16 8 = 16 := by decide +kernel

/-- The size and the alignment of a definition that the generator makes are found, whatever was asked before, unless a sum of sizes
is more than a word (`err ()`): the alignment is 1, 2, 4 or 8, the size is a multiple of it, and is the smallest that has room for
the fields, or for the largest variant and one byte. -/
theorem C65_size (defs : List TypeDef) (h : AllGenerated defs) (st : Strategy) (c : Cache) (hc : Reachable defs st c)
    (i : Nat) (d : TypeDef) (hd : defs[i]? = some d) (n : Nat) (hn : i ≤ n) :
    ∃ a, answer (d.alignHint (Ctx.cached defs st n) c) = .ok a ∧ (a = 1 ∨ a = 2 ∨ a = 4 ∨ a = 8) ∧
      (answer (d.sizeHint (Ctx.cached defs st n) c) = .err () ∨
        ∃ s, answer (d.sizeHint (Ctx.cached defs st n) c) = .ok s ∧ a ∣ s ∧ d.Room (Ctx.plain defs st n) a s) := by
  have hl : i < defs.length := (List.getElem?_eq_some_iff.1 hd).1
  have G := good_plain st h n i hn (by omega)
  obtain ⟨a, h1, h2⟩ := good_dAlign G d (h i d hd)
  obtain ⟨_, T2, T3, _, _⟩ := C65_table defs st c hc n d
  refine ⟨a, by rw [T3 (by rw [h1]; exact fun h => nomatch h), h1], h2, ?_⟩
  rcases good_dSize G d (h i d hd) with h3 | ⟨s, a', h3, h4, h5, h6⟩
  · left; rw [T2 (by rw [h3]; exact fun h => nomatch h), h3]
  · rw [h1] at h3; cases h3
    right
    exact ⟨s, by rw [T2 (by rw [h4]; exact fun h => nomatch h), h4], h5, h6⟩

example : answer (sample[2].sizeHint (Ctx.cached sample ⟨none, none⟩ 5) emptyCache) = .ok 56 := rfl
example : answer (sample[4].alignHint (Ctx.cached sample ⟨none, none⟩ 5) emptyCache) = .ok 8 := rfl

/-- definitions each of which holds the one before it twice -/
def doubling (n : Nat) : List TypeDef :=
  (List.range n).map fun i => if i = 0 then .struct [.prim (.unsigned .b64)] else .struct [.localDef (i - 1), .localDef (i - 1)]

theorem doubling_generated (n : Nat) : AllGenerated (doubling n) := by
  intro i d h
  unfold doubling at h
  rw [List.getElem?_map] at h
  cases hr : (List.range n)[i]? with
  | none => rw [hr] at h; cases h
  | some j =>
    rw [hr] at h
    obtain ⟨_, hj⟩ := List.getElem?_eq_some_iff.1 hr
    rw [List.getElem_range] at hj
    subst hj
    have h := (Option.some.inj h).symm
    subst h
    dsimp only
    split
    · exact ⟨trivial, trivial⟩
    · exact ⟨(by change i - 1 < i; omega), (by change i - 1 < i; omega), trivial⟩

/-- Sizes are added without a check: for definitions that the generator may make, the analysis overflows (a panic in a build with
checks). -/
theorem C65_size_overflow_refuted : ¬ ∀ (defs : List TypeDef), AllGenerated defs → ∀ (i : Nat) d, defs[i]? = some d → ∀ n, i ≤ n →
    ∃ s, answer (d.sizeHint (Ctx.cached defs ⟨none, none⟩ n) emptyCache) = .ok s := by
  intro H
  obtain ⟨s, hs⟩ := H (doubling 63) (doubling_generated 63) 62 (.struct [.localDef 61, .localDef 61]) rfl 63 (by omega)
  have : (match answer (TypeDef.sizeHint (Ctx.cached (doubling 63) ⟨none, none⟩ 63) (.struct [.localDef 61, .localDef 61]) emptyCache) with
      | .ok _ => true
      | _ => false) = false := by
    decide +kernel
  rw [hs] at this
  cases this

/-! ### Boxing -/

/-- The analysis of what to put into a `Box` answers for every definition that the generator makes, whatever the strategy and
whatever was asked before, unless a sum of sizes is too large: it does not panic, if no `Option` is directly inside of another one.
Where it leaves a definition as it is, the layout it tells is the one of the analysis of sizes. -/
theorem C65_heap_partial (defs : List TypeDef) (h : AllGenerated defs) (hn : ∀ d ∈ defs, d.NoNested) (st : Strategy) (c : Cache)
    (hc : Reachable defs st c) (i : Nat) (d : TypeDef) (hd : defs[i]? = some d) (n : Nat) (hi : i ≤ n) :
    answer (d.heapHint (Ctx.cached defs st n) st c) = .err () ∨
      ∃ act lay, answer (d.heapHint (Ctx.cached defs st n) st c) = .ok (act, lay) ∧
        (lay.align = 1 ∨ lay.align = 2 ∨ lay.align = 4 ∨ lay.align = 8) ∧
        (act = .noop → answer (d.sizeHint (Ctx.cached defs st n) c) = .ok lay.size ∧
          answer (d.alignHint (Ctx.cached defs st n) c) = .ok lay.align) := by
  have hl : i < defs.length := (List.getElem?_eq_some_iff.1 hd).1
  have G := good_plain st h n i hi (by omega)
  have H := heap_plain st h hn n i hi (by omega)
  obtain ⟨_, T2, T3, _, T5⟩ := C65_table defs st c hc n d
  rcases good_dHeap G H st d (h i d hd) (hn d (List.mem_of_getElem? hd)) with h1 | ⟨act, lay, h1, h2, _, h3⟩
  · left; rw [T5 (by rw [h1]; exact fun h => nomatch h), h1]
  · refine .inr ⟨act, lay, by rw [T5 (by rw [h1]; exact fun h => nomatch h), h1], h2, fun ha => ?_⟩
    obtain ⟨h4, h5⟩ := h3 ha
    exact ⟨by rw [T2 (by rw [h4]; exact fun h => nomatch h), h4], by rw [T3 (by rw [h5]; exact fun h => nomatch h), h5]⟩

/-- with a limit of 40 bytes, the tuple in the largest variant is put into a `Box` -/
example : answer (sample[2].heapHint (Ctx.cached sample ⟨some 40, none⟩ 5) ⟨some 40, none⟩ emptyCache) =
    .ok (.inEnum [.noop, .noop, .directHeap], ⟨24, 8⟩) := rfl

/-- An `Option` directly inside of an `Option`: the analysis panics if something is to be done to the type inside. -/
theorem C65_heap_nested_refuted : ¬ ∀ (defs : List TypeDef), AllGenerated defs → ∀ st (i : Nat) d, defs[i]? = some d → ∀ n, i ≤ n →
    answer (d.heapHint (Ctx.cached defs st n) st emptyCache) ≠ .panic := by
  intro H
  refine H [.struct [.vec (.prim .bool)], .struct [.option (.option (.localDef 0))]] ?_ ⟨some 16, none⟩ 1 _ rfl 2 (by omega) rfl
  intro i d h
  match i, h with
  | 0, h => cases h; exact ⟨trivial, trivial⟩
  | 1, h => cases h; exact ⟨(by change 0 < 1; omega), trivial⟩
  | _ + 2, h => cases h

/-- The layout that is told for an `Option` is that of a `Box` although nothing in it that large is put into a `Box`: here, an
`Option` of a definition that keeps 40 bytes of its own, only a part of which is put into a `Box`, counts as 16 bytes. -/
theorem C65_heap_option_refuted : ¬ ∀ (defs : List TypeDef) (st : Strategy), AllGenerated defs → ∀ (i : Nat) act lay lay' (n : Nat), i < n → n ≤ defs.length →
    (RType.localDef i).heapHint (Ctx.plain defs st n) st = .ok (.inDef act, lay) →
    (RType.option (.localDef i)).heapHint (Ctx.plain defs st n) st = .ok (.inOption (.inDef act), lay') → lay.size ≤ lay'.size := by
  intro H
  have := H [.struct [.prim (.unsigned .b64)],
      .struct [.tuple [.vec (.prim .bool), .vec (.prim .bool), .vec (.prim .bool)], .vec (.prim .bool)]] ⟨some 64, none⟩ ?_ 1 _ _ _ 2
    (by omega) (Nat.le_refl _) rfl rfl
  · revert this; decide +kernel
  · intro i d h
    match i, h with
    | 0, h => cases h; exact ⟨trivial, trivial⟩
    | 1, h => cases h; exact ⟨⟨trivial, trivial, trivial, trivial⟩, trivial, trivial⟩
    | _ + 2, h => cases h

/-- A shared reference to a slice takes two words, an address and a length; the analysis says one. -/
theorem C65_slice_refuted : ¬ ∀ (st : Strategy) (t : RType), (RType.borrow false (.rawSlice t)).sizeHint (Ctx.plain [] st 0) = .ok 16 :=
  fun H => by cases H ⟨none, none⟩ (.prim (.unsigned .b8))

/-- Where two variants are put into a `Box` because they are larger than the smallest one, the layout that is told for the
enumeration has no room for the byte that tells them apart. -/
theorem C65_heap_tag_refuted : ¬ ∀ (vs : List RVariant) (st : Strategy) lay, (TypeDef.enum vs).Generated 0 →
    (TypeDef.enum vs).heapHint (Ctx.plain [] st 0) st = .ok (.inEnum [.noop, .directHeap, .directHeap], lay) →
      heapLayout.size < lay.size := by
  intro H
  have := H [.unit, .tuple [.vec (.prim .bool)], .tuple [.vec (.prim .char)]] ⟨none, some 8⟩ _ ⟨(fun h => nomatch h), fun ts hts => ?_⟩ rfl
  · revert this; decide +kernel
  · simp only [List.mem_cons, RVariant.tuple.injEq, List.not_mem_nil, or_false, reduceCtorEq, false_or] at hts
    rcases hts with rfl | rfl
    · exact ⟨trivial, trivial⟩
    · exact ⟨trivial, trivial⟩

/-- The table does not tell for which strategy an answer is: a table that was filled with one strategy gives wrong answers with
another one (the code says so in a comment, and makes a new table). -/
theorem C65_two_strategies_refuted : ¬ ∀ (defs : List TypeDef) (st st' : Strategy) (c : Cache), AllGenerated defs → Reachable defs st c →
    ∀ (i : Nat) d, defs[i]? = some d → answer (d.heapHint (Ctx.cached defs st' i) st' c) = d.heapHint (Ctx.plain defs st' i) st' := by
  intro H
  have := H [.struct [.tuple [.vec (.prim .bool), .vec (.prim .bool)]], .struct [.localDef 0]] ⟨none, some 99⟩ ⟨some 32, none⟩ _ ?_
    (.asked .empty (.heap (d := .struct [.localDef 0]) (n := 1) (r := _) (c' := _) rfl)) 1 (.struct [.localDef 0]) rfl
  · cases this
  · intro i d h
    match i, h with
    | 0, h => cases h; exact ⟨⟨trivial, trivial, trivial⟩, trivial⟩
    | 1, h => cases h; exact ⟨(by change 0 < 1; omega), trivial⟩
    | _ + 2, h => cases h

end TypeAnalysis
end Doodle
