import Verif.Spec.TypeAnalysis

/-! The analyses of types, in two monads at once; the table of answers. -/

namespace Doodle
namespace TypeAnalysis

/-- a relation between computations of two monads -/
structure Sim (M M' : Type → Type) [Monad M] [Monad M'] where
  rel : {α : Type} → M α → M' α → Prop
  pure : ∀ {α : Type} (a : α), rel (Pure.pure a) (Pure.pure a)
  bind : ∀ {α β : Type} {x : M α} {y : M' α} {f : α → M β} {g : α → M' β}, rel x y → (∀ a, rel (f a) (g a)) → rel (x >>= f) (y >>= g)

/-- answers to the same questions -/
structure Sim.Ctx {M M' : Type → Type} [Monad M] [Monad M'] (S : Sim M M') (C : Ctx M) (C' : TypeAnalysis.Ctx M') : Prop where
  niches : ∀ i, S.rel (C.niches i) (C'.niches i)
  size : ∀ i, S.rel (C.size i) (C'.size i)
  align : ∀ i, S.rel (C.align i) (C'.align i)
  copy : ∀ i, S.rel (C.copy i) (C'.copy i)
  heap : ∀ i, S.rel (C.heap i) (C'.heap i)
  unreachable : ∀ {α : Type}, S.rel (C.unreachable (α := α)) C'.unreachable
  overflow : ∀ {α : Type}, S.rel (C.overflow (α := α)) C'.overflow

section
variable {M M' : Type → Type} [Monad M] [Monad M'] {S : Sim M M'} {C : Ctx M} {C' : Ctx M'} (R : S.Ctx C C')
include R

theorem sim_add (a b : Nat) : S.rel (C.add a b) (C'.add a b) := by
  unfold Ctx.add; split
  · exact S.pure _
  · exact R.overflow

theorem sim_aligned (a b : Nat) : S.rel (C.aligned a b) (C'.aligned a b) := by
  unfold Ctx.aligned; split
  · exact S.pure _
  · exact R.overflow

theorem sim_layout (a b : Nat) : S.rel (C.layout a b) (C'.layout a b) := by
  unfold Ctx.layout; split
  · split
    · exact S.pure _
    · exact R.overflow
  · exact R.unreachable

mutual
theorem sim_align : ∀ t : RType, S.rel (t.alignHint C) (t.alignHint C')
  | .prim p => by unfold RType.alignHint; exact S.pure _
  | .signed w => by unfold RType.alignHint; exact S.pure _
  | .localDef ix => by unfold RType.alignHint; exact R.align ix
  | .external => by unfold RType.alignHint; exact R.unreachable
  | .vec _ => by unfold RType.alignHint; exact S.pure _
  | .rawSlice _ => by unfold RType.alignHint; exact R.unreachable
  | .option t => by unfold RType.alignHint; exact sim_align t
  | .result _ _ => by unfold RType.alignHint; exact R.unreachable
  | .borrow _ _ => by unfold RType.alignHint; exact S.pure _
  | .phantomData _ => by unfold RType.alignHint; exact S.pure _
  | .tuple ts => by unfold RType.alignHint; exact sim_alignAll ts
  | .verbatim => by unfold RType.alignHint; exact R.unreachable
  | .readArray => by unfold RType.alignHint; exact S.pure _
  | .viewObject => by unfold RType.alignHint; exact S.pure _

theorem sim_alignAll : ∀ ts : List RType, S.rel (RType.alignAll C ts) (RType.alignAll C' ts)
  | [] => by unfold RType.alignAll; exact S.pure _
  | t :: ts => by
    unfold RType.alignAll
    exact S.bind (sim_align t) fun _ => S.bind (sim_alignAll ts) fun _ => S.pure _
end

mutual
theorem sim_niches : ∀ t : RType, S.rel (t.niches C) (t.niches C')
  | .prim p => by unfold RType.niches; exact S.pure _
  | .signed w => by unfold RType.niches; exact S.pure _
  | .localDef ix => by unfold RType.niches; exact R.niches ix
  | .external => by unfold RType.niches; exact R.unreachable
  | .vec _ => by unfold RType.niches; exact S.pure _
  | .rawSlice _ => by unfold RType.niches; exact R.unreachable
  | .option t => by
    unfold RType.niches
    refine S.bind (sim_niches t) fun n => ?_
    split
    · refine S.bind (sim_align R t) fun a => ?_
      split
      · exact S.pure _
      · split
        · exact S.pure _
        · exact R.unreachable
    · exact S.pure _
  | .result _ _ => by unfold RType.niches; exact R.unreachable
  | .borrow _ _ => by unfold RType.niches; exact S.pure _
  | .phantomData _ => by unfold RType.niches; exact S.pure _
  | .tuple ts => by
    unfold RType.niches
    exact S.bind (sim_nichesAll ts) fun _ => S.pure _
  | .verbatim => by unfold RType.niches; exact S.pure _
  | .readArray => by unfold RType.niches; exact S.pure _
  | .viewObject => by unfold RType.niches; exact S.pure _

theorem sim_nichesAll : ∀ ts : List RType, S.rel (RType.nichesAll C ts) (RType.nichesAll C' ts)
  | [] => by unfold RType.nichesAll; exact S.pure _
  | t :: ts => by
    unfold RType.nichesAll
    exact S.bind (sim_niches t) fun _ => S.bind (sim_nichesAll ts) fun _ => S.pure _
end

mutual
theorem sim_size : ∀ t : RType, S.rel (t.sizeHint C) (t.sizeHint C')
  | .prim p => by unfold RType.sizeHint; exact S.pure _
  | .signed w => by unfold RType.sizeHint; exact S.pure _
  | .localDef ix => by unfold RType.sizeHint; exact R.size ix
  | .external => by unfold RType.sizeHint; exact R.unreachable
  | .vec _ => by unfold RType.sizeHint; exact S.pure _
  | .rawSlice _ => by unfold RType.sizeHint; exact R.unreachable
  | .option t => by
    unfold RType.sizeHint
    refine S.bind (sim_niches R t) fun n => S.bind (sim_size t) fun s => ?_
    split
    · exact S.pure _
    · exact S.bind (sim_align R t) fun a => sim_add R _ _
  | .result _ _ => by unfold RType.sizeHint; exact R.unreachable
  | .borrow _ _ => by unfold RType.sizeHint; exact S.pure _
  | .phantomData _ => by unfold RType.sizeHint; exact S.pure _
  | .tuple ts => by
    unfold RType.sizeHint
    exact S.bind (sim_sizeAll ts 0 1) fun _ => sim_aligned R _ _
  | .verbatim => by unfold RType.sizeHint; exact R.unreachable
  | .readArray => by unfold RType.sizeHint; exact S.pure _
  | .viewObject => by unfold RType.sizeHint; exact S.pure _

theorem sim_sizeAll : ∀ (ts : List RType) (s a : Nat), S.rel (RType.sizeAll C ts s a) (RType.sizeAll C' ts s a)
  | [], _, _ => by unfold RType.sizeAll; exact S.pure _
  | t :: ts, s, a => by
    unfold RType.sizeAll
    exact S.bind (sim_size t) fun _ => S.bind (sim_add R _ _) fun _ => S.bind (sim_align R t) fun _ => sim_sizeAll ts _ _
end

mutual
theorem sim_copy : ∀ t : RType, S.rel (t.copyHint C) (t.copyHint C')
  | .prim p => by unfold RType.copyHint; exact S.pure _
  | .signed w => by unfold RType.copyHint; exact S.pure _
  | .localDef ix => by unfold RType.copyHint; exact R.copy ix
  | .external => by unfold RType.copyHint; exact R.unreachable
  | .vec _ => by unfold RType.copyHint; exact S.pure _
  | .rawSlice _ => by unfold RType.copyHint; exact R.unreachable
  | .option t => by unfold RType.copyHint; exact sim_copy t
  | .result t e => by
    unfold RType.copyHint
    refine S.bind (sim_copy t) fun b => ?_
    cases b
    · exact S.pure _
    · exact sim_copy e
  | .borrow true _ => by unfold RType.copyHint; exact R.unreachable
  | .borrow false _ => by unfold RType.copyHint; exact S.pure _
  | .phantomData _ => by unfold RType.copyHint; exact S.pure _
  | .tuple ts => by unfold RType.copyHint; exact sim_copyAll ts
  | .verbatim => by unfold RType.copyHint; exact R.unreachable
  | .readArray => by unfold RType.copyHint; exact S.pure _
  | .viewObject => by unfold RType.copyHint; exact S.pure _

theorem sim_copyAll : ∀ ts : List RType, S.rel (RType.copyAll C ts) (RType.copyAll C' ts)
  | [] => by unfold RType.copyAll; exact S.pure _
  | t :: ts => by
    unfold RType.copyAll
    refine S.bind (sim_copy t) fun b => ?_
    cases b
    · exact S.pure _
    · exact sim_copyAll ts
end

theorem sim_vNiches (v : RVariant) : S.rel (v.niches C) (v.niches C') := by
  cases v with
  | unit => exact S.pure _
  | tuple ts => exact S.bind (sim_nichesAll R ts) fun _ => S.pure _

theorem sim_vSize (v : RVariant) : S.rel (v.sizeHint C) (v.sizeHint C') := by
  cases v with
  | unit => exact S.pure _
  | tuple ts => exact S.bind (sim_sizeAll R ts 0 1) fun _ => sim_aligned R _ _

theorem sim_vAlign (v : RVariant) : S.rel (v.alignHint C) (v.alignHint C') := by
  cases v with
  | unit => exact S.pure _
  | tuple ts => exact sim_alignAll R ts

theorem sim_vCopy (v : RVariant) : S.rel (v.copyHint C) (v.copyHint C') := by
  cases v with
  | unit => exact S.pure _
  | tuple ts => exact sim_copyAll R ts

theorem sim_vNichesAll (vs : List RVariant) : S.rel (RVariant.nichesAll C vs) (RVariant.nichesAll C' vs) := by
  induction vs with
  | nil => exact S.pure _
  | cons v vs ih => exact S.bind (sim_vNiches R v) fun _ => S.bind ih fun _ => S.pure _

theorem sim_vSizeMax (vs : List RVariant) : S.rel (RVariant.sizeMax C vs) (RVariant.sizeMax C' vs) := by
  induction vs with
  | nil => exact S.pure _
  | cons v vs ih => exact S.bind (sim_vSize R v) fun _ => S.bind ih fun _ => S.pure _

theorem sim_vAlignMax (vs : List RVariant) : S.rel (RVariant.alignMax C vs) (RVariant.alignMax C' vs) := by
  induction vs with
  | nil => exact S.pure _
  | cons v vs ih => exact S.bind (sim_vAlign R v) fun _ => S.bind ih fun _ => S.pure _

theorem sim_vCopyAll (vs : List RVariant) : S.rel (RVariant.copyAll C vs) (RVariant.copyAll C' vs) := by
  induction vs with
  | nil => exact S.pure _
  | cons v vs ih =>
    refine S.bind (sim_vCopy R v) fun b => ?_
    cases b
    · exact S.pure _
    · exact ih

theorem sim_dNiches (d : TypeDef) : S.rel (d.niches C) (d.niches C') := by
  cases d with
  | struct fs => exact S.bind (sim_nichesAll R fs) fun _ => S.pure _
  | enum vs => exact S.bind (sim_vNichesAll R vs) fun _ => S.pure _

theorem sim_dSize (d : TypeDef) : S.rel (d.sizeHint C) (d.sizeHint C') := by
  cases d with
  | struct fs => exact S.bind (sim_sizeAll R fs 0 1) fun _ => sim_aligned R _ _
  | enum vs =>
    exact S.bind (sim_vSizeMax R vs) fun _ => S.bind (sim_vAlignMax R vs) fun _ => S.bind (sim_add R _ _) fun _ => sim_aligned R _ _

theorem sim_dAlign (d : TypeDef) : S.rel (d.alignHint C) (d.alignHint C') := by
  cases d with
  | struct fs => exact sim_alignAll R fs
  | enum vs => exact sim_vAlignMax R vs

theorem sim_dCopy (d : TypeDef) : S.rel (d.copyHint C) (d.copyHint C') := by
  cases d with
  | struct fs => exact sim_copyAll R fs
  | enum vs => exact sim_vCopyAll R vs

theorem sim_tLayout (t : RType) : S.rel (t.mkLayout C) (t.mkLayout C') :=
  S.bind (sim_size R t) fun _ => S.bind (sim_align R t) fun _ => sim_layout R _ _

theorem sim_vLayout (t : RVariant) : S.rel (t.mkLayout C) (t.mkLayout C') :=
  S.bind (sim_vSize R t) fun _ => S.bind (sim_vAlign R t) fun _ => sim_layout R _ _

theorem sim_dLayout (t : TypeDef) : S.rel (t.mkLayout C) (t.mkLayout C') :=
  S.bind (sim_dSize R t) fun _ => S.bind (sim_dAlign R t) fun _ => sim_layout R _ _

omit R in
theorem sim_unchanged {x : M Layout} {y : M' Layout} (h : S.rel x y) : S.rel (unchanged x) (unchanged y) :=
  S.bind h fun _ => S.pure _

variable (st : Strategy)

theorem sim_local (ix : Nat) : S.rel (localHint C st ix) (localHint C' st ix) := by
  refine S.bind (R.heap ix) fun r => ?_
  obtain ⟨act, lay⟩ := r
  dsimp only
  split
  · exact S.pure _
  · cases act <;> first | exact S.pure _ | exact R.unreachable

theorem sim_option (t : RType) (act : Action) : S.rel (optionHint C t act) (optionHint C' t act) := by
  cases act with
  | noop => exact S.bind (sim_tLayout R _) fun _ => S.pure _
  | nonLocal => exact S.pure _
  | directHeap => exact S.pure _
  | inDef => exact S.pure _
  | inTuple => exact S.pure _
  | inOption => exact R.unreachable
  | inRecord => exact R.unreachable
  | inEnum => exact R.unreachable

theorem sim_tuple (r : List Action × Nat × Nat) : S.rel (tupleHint C st r) (tupleHint C' st r) := by
  refine S.bind (sim_aligned R _ _) fun size => ?_
  split
  · exact S.pure _
  · exact S.bind (sim_layout R _ _) fun _ => S.pure _

mutual
theorem sim_heap : ∀ t : RType, S.rel (t.heapHint C st) (t.heapHint C' st)
  | .prim p => by unfold RType.heapHint; exact sim_unchanged (sim_tLayout R _)
  | .signed w => by unfold RType.heapHint; exact sim_unchanged (sim_tLayout R _)
  | .localDef ix => by unfold RType.heapHint; exact sim_local R st ix
  | .external => by unfold RType.heapHint; exact R.unreachable
  | .vec _ => by unfold RType.heapHint; exact sim_unchanged (sim_tLayout R _)
  | .rawSlice _ => by unfold RType.heapHint; exact R.unreachable
  | .option t => by
    unfold RType.heapHint
    exact S.bind (sim_heap t) fun r => sim_option R t _
  | .result _ _ => by unfold RType.heapHint; exact R.unreachable
  | .borrow _ _ => by unfold RType.heapHint; exact sim_unchanged (sim_tLayout R _)
  | .phantomData _ => by unfold RType.heapHint; exact sim_unchanged (sim_tLayout R _)
  | .tuple ts => by
    unfold RType.heapHint
    split
    · exact sim_unchanged (sim_tLayout R _)
    · exact S.bind (sim_heapAll ts 0 1) fun r => sim_tuple R st r
  | .verbatim => by unfold RType.heapHint; exact R.unreachable
  | .readArray => by unfold RType.heapHint; exact sim_unchanged (sim_tLayout R _)
  | .viewObject => by unfold RType.heapHint; exact sim_unchanged (sim_tLayout R _)

theorem sim_heapAll : ∀ (ts : List RType) (s a : Nat), S.rel (RType.heapAll C st ts s a) (RType.heapAll C' st ts s a)
  | [], _, _ => by unfold RType.heapAll; exact S.pure _
  | t :: ts, s, a => by
    unfold RType.heapAll
    exact S.bind (sim_heap t) fun _ => S.bind (sim_add R _ _) fun _ => S.bind (sim_heapAll ts _ _) fun _ => S.pure _
end

theorem sim_vHeap (v : RVariant) : S.rel (v.heapHint C st) (v.heapHint C' st) := by
  cases v with
  | unit => exact S.bind (sim_layout R _ _) fun _ => S.pure _
  | tuple ts =>
    unfold RVariant.heapHint
    dsimp only
    split
    · exact sim_unchanged (sim_vLayout R _)
    · exact S.bind (sim_heapAll R st ts 0 1) fun r => sim_tuple R st r

theorem sim_vHeapAll (vs : List RVariant) : S.rel (RVariant.heapAll C st vs) (RVariant.heapAll C' st vs) := by
  induction vs with
  | nil => exact S.pure _
  | cons v vs ih => exact S.bind (sim_vHeap R st v) fun _ => S.bind ih fun _ => S.pure _

theorem sim_enumLayout (rs : List (Action × Layout)) : S.rel (enumLayout C rs) (enumLayout C' rs) :=
  S.bind (sim_add R _ _) fun _ => S.bind (sim_aligned R _ _) fun _ => sim_layout R _ _

theorem sim_dHeap (d : TypeDef) : S.rel (d.heapHint C st) (d.heapHint C' st) := by
  cases d with
  | struct fs =>
    unfold TypeDef.heapHint
    dsimp only
    split
    · exact sim_unchanged (sim_dLayout R _)
    · exact S.bind (sim_heapAll R st fs 0 1) fun r => S.bind (sim_aligned R _ _) fun _ => S.bind (sim_layout R _ _) fun _ => S.pure _
  | enum vs =>
    unfold TypeDef.heapHint
    dsimp only
    cases st.variant with
    | some delta =>
      dsimp only
      refine S.bind (sim_vHeapAll R st vs) fun rs => ?_
      cases minSize rs with
      | none => exact R.unreachable
      | some least =>
        dsimp only
        refine S.bind (sim_add R _ _) fun cut => ?_
        split
        · exact S.bind (sim_layout R _ _) fun _ => S.pure _
        · split
          · exact sim_unchanged (sim_dLayout R _)
          · exact S.bind (sim_enumLayout R _) fun _ => S.pure _
    | none =>
      dsimp only
      split
      · refine S.bind (sim_vHeapAll R st vs) fun rs => ?_
        split
        · exact sim_unchanged (sim_dLayout R _)
        · exact S.bind (sim_enumLayout R _) fun _ => S.pure _
      · exact sim_unchanged (sim_dLayout R _)

end
end TypeAnalysis
end Doodle
