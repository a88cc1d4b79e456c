import Verif.Lemmas.Compile

/-! A decoder stays a decoder when the side conditions are relaxed. -/

namespace Doodle

/-- `R'` allows all that `R` allows -/
structure CRel.Le (R R' : CRel) : Prop where
  tree : ∀ fs next t, R.tree fs next t → R'.tree fs next t
  nonNull : ∀ f, R.nonNull f → R'.nonNull f
  short : ∀ f, R.short f → R'.short f
  exact : ∀ e n, R.exact e n → R'.exact e n
  item : ∀ level it, R.item level = some it → R'.item level = some it
  dep : ∀ level it b, R.item level = some it → R.dep it.format b → R'.dep it.format b
  calls : ∀ level it next k, R.item level = some it → R.calls level next k → R'.calls level next k

mutual
theorem Compiles.mono {R R' : CRel} (hl : R.Le R') : ∀ {f next d}, Compiles R f next d → Compiles R' f next d
  | _, _, _, .itemVar h1 h2 h3 => .itemVar (hl.item _ _ h1) (hl.dep _ _ _ h1 h2) (hl.calls _ _ _ _ h1 h3)
  | _, _, _, .phantom => .phantom
  | _, _, _, .fail => .fail
  | _, _, _, .decodeBytes h => .decodeBytes (h.mono hl)
  | _, _, _, .parseFromView h => .parseFromView (h.mono hl)
  | _, _, _, .pos => .pos
  | _, _, _, .letView h => .letView (h.mono hl)
  | _, _, _, .endOfInput => .endOfInput
  | _, _, _, .align => .align
  | _, _, _, .byte => .byte
  | _, _, _, .skipRemainder => .skipRemainder
  | _, _, _, .variant h => .variant (h.mono hl)
  | _, _, _, .union h t => .union (h.mono hl) (hl.tree _ _ _ t)
  | _, _, _, .unionNondet h => .unionNondet (h.mono hl)
  | _, _, _, .tuple h => .tuple (h.mono hl)
  | _, _, _, .sequence h => .sequence (h.mono hl)
  | _, _, _, .repeat_ n h t => .repeat_ (hl.nonNull _ n) (h.mono hl) (hl.tree _ _ _ t)
  | _, _, _, .repeat1 n h t => .repeat1 (hl.nonNull _ n) (h.mono hl) (hl.tree _ _ _ t)
  | _, _, _, .repeatCount h => .repeatCount (h.mono hl)
  | _, _, _, .repeatBetween x y h t =>
    .repeatBetween (hl.exact _ _ x) (hl.exact _ _ y) (h.mono hl) (hl.tree _ _ _ t)
  | _, _, _, .repeatUntilLast h => .repeatUntilLast (h.mono hl)
  | _, _, _, .repeatUntilSeq h => .repeatUntilSeq (h.mono hl)
  | _, _, _, .forEach h => .forEach (h.mono hl)
  | _, _, _, .accumUntil h => .accumUntil (h.mono hl)
  | _, _, _, .maybe h => .maybe (h.mono hl)
  | _, _, _, .peek h => .peek (h.mono hl)
  | _, _, _, .peekNot s h => .peekNot (hl.short _ s) (h.mono hl)
  | _, _, _, .slice h => .slice (h.mono hl)
  | _, _, _, .bits h => .bits (h.mono hl)
  | _, _, _, .withRelativeOffset h => .withRelativeOffset (h.mono hl)
  | _, _, _, .map h => .map (h.mono hl)
  | _, _, _, .where_ h => .where_ (h.mono hl)
  | _, _, _, .enforce h => .enforce (h.mono hl)
  | _, _, _, .permit h => .permit (h.mono hl)
  | _, _, _, .compute => .compute
  | _, _, _, .let_ h => .let_ (h.mono hl)
  | _, _, _, .match_ h => .match_ (h.mono hl)
  | _, _, _, .dynamic h => .dynamic (h.mono hl)
  | _, _, _, .apply => .apply
  | _, _, _, .letFormat h1 h2 => .letFormat (h1.mono hl) (h2.mono hl)
  | _, _, _, .monadSeq h1 h2 => .monadSeq (h1.mono hl) (h2.mono hl)
  | _, _, _, .hint h => .hint (h.mono hl)
  | _, _, _, .liftedNone => .liftedNone
  | _, _, _, .liftedSome h => .liftedSome (h.mono hl)
  | _, _, _, .captureBytes => .captureBytes
  | _, _, _, .readArray => .readArray
  | _, _, _, .reifyView => .reifyView

theorem CompilesAll.mono {R R' : CRel} (hl : R.Le R') :
    ∀ {fs next ds}, CompilesAll R fs next ds → CompilesAll R' fs next ds
  | _, _, _, .anil => .anil
  | _, _, _, .acons h1 h2 => .acons (h1.mono hl) (h2.mono hl)

theorem CompilesFields.mono {R R' : CRel} (hl : R.Le R') :
    ∀ {fs next ds}, CompilesFields R fs next ds → CompilesFields R' fs next ds
  | _, _, _, .fnil => .fnil
  | _, _, _, .fcons h1 h2 => .fcons (h1.mono hl) (h2.mono hl)

theorem CompilesBranches.mono {R R' : CRel} (hl : R.Le R') :
    ∀ {fs next ds}, CompilesBranches R fs next ds → CompilesBranches R' fs next ds
  | _, _, _, .bnil => .bnil
  | _, _, _, .bcons h1 h2 => .bcons (h1.mono hl) (h2.mono hl)
end

/-- The side conditions checked when compiling in the module `m` with table `M`, or, for Huffman codes
compiled at run time, in the empty module. -/
def CRel.both (m : Module) (o : BuildOpts) (M : List ((Nat × Next) × Nat)) : CRel where
  item level := m.items[level]?
  tree fs next t := (CRel.of m o M).tree fs next t ∨ (CRel.of .empty o M).tree fs next t
  dep f b := (CRel.of m o M).dep f b
  nonNull f := (CRel.of m o M).nonNull f ∨ (CRel.of .empty o M).nonNull f
  short f := (CRel.of m o M).short f ∨ (CRel.of .empty o M).short f
  exact := (CRel.of m o M).exact
  calls := (CRel.of m o M).calls

theorem CRel.of_le_both (m : Module) (o : BuildOpts) (M : List ((Nat × Next) × Nat)) :
    (CRel.of m o M).Le (.both m o M) :=
  ⟨fun _ _ _ h => .inl h, fun _ h => .inl h, fun _ h => .inl h, fun _ _ h => h, fun _ _ h => h,
    fun _ _ _ _ h => h, fun _ _ _ _ _ h => h⟩

theorem CRel.empty_le_both (m : Module) (o : BuildOpts) (M M' : List ((Nat × Next) × Nat)) :
    (CRel.of .empty o M').Le (.both m o M) :=
  ⟨fun _ _ _ h => .inr h, fun _ h => .inr h, fun _ h => .inr h, fun _ _ h => h,
    fun _ _ h => by simp [CRel.of, Module.empty] at h,
    fun _ _ _ h => by simp [CRel.of, Module.empty] at h,
    fun _ _ _ _ h => by simp [CRel.of, Module.empty] at h⟩

end Doodle
