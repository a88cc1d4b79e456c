import Verif.Model.Compile

/-!
The compiler as a relation: `Compiles R f next d` says that `d` is a decoder for `f` followed by `next`,
up to what `R` allows for prefix trees, calls and the side conditions checked while compiling.
-/

namespace Doodle

/-- what a compilation depends on -/
structure CRel where
  /-- the items of the module -/
  item : Nat → Option Item
  /-- `t` is a prefix tree for the alternatives followed by `next` -/
  tree : List Format → Next → MatchTree → Prop
  /-- whether the prefix trees of the format depend on what follows -/
  dep : Format → Bool → Prop
  /-- the format was found not to match the empty string -/
  nonNull : Format → Prop
  /-- the lookahead of the format was found to be short enough for `PeekNot` -/
  short : Format → Prop
  /-- an expression has just one value, statically -/
  exact : Expr → Nat → Prop
  /-- decoder number `k` is the decoder of item `level` followed by `next` -/
  calls : Nat → Next → Nat → Prop

mutual
inductive Compiles (R : CRel) : Format → Next → Decoder → Prop
  | itemVar {level args views it next dep k} : R.item level = some it → R.dep it.format dep →
      R.calls level (if dep then next else .empty) k →
      Compiles R (.itemVar level args views) next (.call k (it.args.zip args) (it.views.zip views))
  | phantom {f next} : Compiles R (.phantom f) next .phantom
  | fail {next} : Compiles R .fail next .fail
  | decodeBytes {e f next d} : Compiles R f .empty d → Compiles R (.decodeBytes e f) next (.decodeBytes e d)
  | parseFromView {v f next d} : Compiles R f .empty d →
      Compiles R (.parseFromView v f) next (.parseFromView v d)
  | pos {next} : Compiles R .pos next .pos
  | letView {x f next d} : Compiles R f next d → Compiles R (.letView x f) next (.letView x d)
  | endOfInput {next} : Compiles R .endOfInput next .endOfInput
  | align {n next} : Compiles R (.align n) next (.align n)
  | byte {bs next} : Compiles R (.byte bs) next (.byte bs)
  | skipRemainder {next} : Compiles R .skipRemainder next .skipRemainder
  | variant {l f next d} : Compiles R f next d → Compiles R (.variant l f) next (.variant l d)
  | union {fs next ds t} : CompilesAll R fs next ds → R.tree fs next t →
      Compiles R (.union fs) next (.branch t ds)
  | unionNondet {fs next ds} : CompilesAll R fs next ds → Compiles R (.unionNondet fs) next (.parallel ds)
  | tuple {fs next ds} : CompilesFields R fs next ds → Compiles R (.tuple fs) next (.tuple ds)
  | sequence {fs next ds} : CompilesFields R fs next ds → Compiles R (.sequence fs) next (.sequence ds)
  | repeat_ {f next d t} : R.nonNull f → Compiles R f (.repeat_ f next) d →
      R.tree [.tuple [f, .repeat_ f], Format.EMPTY] next t → Compiles R (.repeat_ f) next (.while_ t d)
  | repeat1 {f next d t} : R.nonNull f → Compiles R f (.repeat_ f next) d →
      R.tree [Format.EMPTY, .tuple [f, .repeat_ f]] next t → Compiles R (.repeat1 f) next (.until_ t d)
  | repeatCount {e f next d} : Compiles R f (.repeat_ f next) d →
      Compiles R (.repeatCount e f) next (.repeatCount e d)
  | repeatBetween {x y f min max next d t} : R.exact x min → R.exact y max →
      Compiles R f (.repeatBetween (min - 1) (max - 1) f next) d →
      R.tree (Compiler.countFormats f max) next t →
      Compiles R (.repeatBetween x y f) next (.repeatBetween t x y d)
  | repeatUntilLast {e f next d} : Compiles R f (.repeat_ f next) d →
      Compiles R (.repeatUntilLast e f) next (.repeatUntilLast e d)
  | repeatUntilSeq {e f next d} : Compiles R f (.repeat_ f next) d →
      Compiles R (.repeatUntilSeq e f) next (.repeatUntilSeq e d)
  | forEach {e l f next d} : Compiles R f (.repeat_ f next) d →
      Compiles R (.forEach e l f) next (.forEach e l d)
  | accumUntil {e1 e2 e3 ty f next d} : Compiles R f (.repeat_ f next) d →
      Compiles R (.accumUntil e1 e2 e3 ty f) next (.accumUntil e1 e2 e3 d)
  | maybe {e f next d} : Compiles R f .empty d → Compiles R (.maybe e f) next (.maybe e d)
  | peek {f next d} : Compiles R f .empty d → Compiles R (.peek f) next (.peek d)
  | peekNot {f next d} : R.short f → Compiles R f .empty d → Compiles R (.peekNot f) next (.peekNot d)
  | slice {e f next d} : Compiles R f .empty d → Compiles R (.slice e f) next (.slice e d)
  | bits {f next d} : Compiles R f .empty d → Compiles R (.bits f) next (.bits d)
  | withRelativeOffset {e1 e2 f next d} : Compiles R f .empty d →
      Compiles R (.withRelativeOffset e1 e2 f) next (.withRelativeOffset e1 e2 d)
  | map {f e next d} : Compiles R f next d → Compiles R (.map f e) next (.map d e)
  | where_ {f e strict next d} : Compiles R f next d → Compiles R (.where_ f e strict) next (.where_ d e strict)
  | enforce {f next d} : Compiles R f next d → Compiles R (.enforce f) next (.enforce d)
  | permit {f e next d} : Compiles R f next d → Compiles R (.permit f e) next (.permit d e)
  | compute {e next} : Compiles R (.compute e) next (.compute e)
  | let_ {x e f next d} : Compiles R f next d → Compiles R (.let_ x e f) next (.let_ x e d)
  | match_ {head fs next ds} : CompilesBranches R fs next ds → Compiles R (.match_ head fs) next (.match_ head ds)
  | dynamic {x ls vs f next d} : Compiles R f next d → Compiles R (.dynamic x ls vs f) next (.dynamic x ls vs d)
  | apply {x next} : Compiles R (.apply x) next (.apply x)
  | letFormat {f x g next d e} : Compiles R f (.cat g next) d → Compiles R g next e →
      Compiles R (.letFormat f x g) next (.letFormat d x e)
  | monadSeq {f g next d e} : Compiles R f (.cat g next) d → Compiles R g next e →
      Compiles R (.monadSeq f g) next (.monadSeq d e)
  | hint {f next d} : Compiles R f next d → Compiles R (.hint f) next d
  | liftedNone {next} : Compiles R .liftedNone next .liftedNone
  | liftedSome {f next d} : Compiles R f next d → Compiles R (.liftedSome f) next (.liftedSome d)
  | captureBytes {v e next} : Compiles R (.captureBytes v e) next (.captureBytes v e)
  | readArray {v e kind next} : Compiles R (.readArray v e kind) next (.readArray v e kind)
  | reifyView {v next} : Compiles R (.reifyView v) next (.reifyView v)

inductive CompilesAll (R : CRel) : List Format → Next → List Decoder → Prop
  | anil {next} : CompilesAll R [] next []
  | acons {f fs next d ds} : Compiles R f next d → CompilesAll R fs next ds →
      CompilesAll R (f :: fs) next (d :: ds)

inductive CompilesFields (R : CRel) : List Format → Next → List Decoder → Prop
  | fnil {next} : CompilesFields R [] next []
  | fcons {f fs next d ds} : Compiles R f (.sequence fs next) d → CompilesFields R fs next ds →
      CompilesFields R (f :: fs) next (d :: ds)

inductive CompilesBranches (R : CRel) : List (Pattern × Format) → Next → List (Pattern × Decoder) → Prop
  | bnil {next} : CompilesBranches R [] next []
  | bcons {p f fs next d ds} : Compiles R f next d → CompilesBranches R fs next ds →
      CompilesBranches R ((p, f) :: fs) next ((p, d) :: ds)
end

/-- the side conditions the compiler really checks, with `M` as its table of compiled items -/
def CRel.of (m : Module) (o : BuildOpts) (M : List ((Nat × Next) × Nat)) : CRel where
  item level := m.items[level]?
  tree fs next t := MatchTree.build m o.ord o.fuel fs next = .ok (some t)
  dep f b := f.dependsOnNext m o = .ok b
  nonNull f := f.isNullable m = .ok false
  short f := ∃ b, f.lookaheadBounds m = .ok b ∧ Compiler.peekNotAllowed b = true
  exact e n := ∃ b, e.bounds = .ok b ∧ b.asExact = some n
  calls level next k := ((level, next), k) ∈ M

namespace Compiler

/-- queue entries for the targets `ext`, numbered from `n`; the last one is on top -/
def entries : Nat → List (Format × Next) → List (Format × Next × Nat)
  | _, [] => []
  | n, (f, x) :: r => entries (n + 1) r ++ [(f, x, n)]

theorem entries_append (a b : List (Format × Next)) (n : Nat) :
    entries n (a ++ b) = entries (n + a.length) b ++ entries n a := by
  induction a generalizing n with
  | nil => simp [entries]
  | cons p a ih =>
    obtain ⟨f, x⟩ := p
    simp only [List.cons_append, entries, ih, List.length_cons, List.append_assoc]
    rw [show n + 1 + a.length = n + (a.length + 1) by omega]

theorem mem_entries {a : List (Format × Next)} {n : Nat} {e : Format × Next × Nat} :
    e ∈ entries n a ↔ ∃ i, a[i]? = some (e.1, e.2.1) ∧ e.2.2 = n + i := by
  induction a generalizing n with
  | nil => simp [entries]
  | cons p a ih =>
    obtain ⟨f, x⟩ := p
    simp only [entries, List.mem_append, ih, List.mem_singleton]
    constructor
    · rintro (⟨i, h1, h2⟩ | rfl)
      · exact ⟨i + 1, by simpa using h1, by omega⟩
      · exact ⟨0, by simp, by simp⟩
    · rintro ⟨i, h1, h2⟩
      cases i with
      | zero => right; simp at h1; obtain ⟨rfl, rfl⟩ := h1; simp at h2; rw [← h2]
      | succ i => left; exact ⟨i, by simpa using h1, by omega⟩

/-- `st'` extends `st` by slots for the targets `ext` -/
structure Ext (m : Module) (st st' : CompSt) (ext : List (Format × Next)) : Prop where
  decoders : st'.decoders = st.decoders ++ List.replicate ext.length .fail
  queue : st'.queue = entries st.decoders.length ext ++ st.queue
  map : ∀ x ∈ st.map, x ∈ st'.map
  targets : ∀ x ∈ st'.map, x ∈ st.map ∨ ∃ it i, m.items[x.1.1]? = some it ∧
    x.2 = st.decoders.length + i ∧ ext[i]? = some (it.format, x.1.2)

theorem Ext.refl (m : Module) (st : CompSt) : Ext m st st [] :=
  ⟨by simp, by simp [entries], fun _ h => h, fun _ h => .inl h⟩

theorem Ext.trans {m : Module} {s1 s2 s3 : CompSt} {a b : List (Format × Next)}
    (h1 : Ext m s1 s2 a) (h2 : Ext m s2 s3 b) : Ext m s1 s3 (a ++ b) where
  decoders := by rw [h2.decoders, h1.decoders, List.append_assoc, List.length_append]; simp
  queue := by
    rw [h2.queue, h1.queue, entries_append, h1.decoders, List.append_assoc]
    simp
  map x hx := h2.map x (h1.map x hx)
  targets x hx := by
    rcases h2.targets x hx with h | ⟨it, i, h3, h4, h5⟩
    · rcases h1.targets x h with h | ⟨it, i, h3, h4, h5⟩
      · exact .inl h
      · exact .inr ⟨it, i, h3, h4, by rw [List.getElem?_append_left (List.getElem?_eq_some_iff.1 h5).1, h5]⟩
    · refine .inr ⟨it, a.length + i, h3, ?_, ?_⟩
      · rw [h4, h1.decoders]; simp; omega
      · rw [List.getElem?_append_right (by omega)]; simpa using h5

theorem mapGet_mem [DecidableEq Next] {key : Nat × Next} {M : List ((Nat × Next) × Nat)} {n : Nat}
    (h : mapGet key M = some n) : (key, n) ∈ M := by
  induction M with
  | nil => simp [mapGet] at h
  | cons p M ih =>
    obtain ⟨k, x⟩ := p
    simp only [mapGet] at h
    split at h
    · next e => simp at h; subst h; subst e; simp
    · exact List.mem_cons_of_mem _ (ih h)

theorem callIndex_ext [DecidableEq Next] {m : Module} {st : CompSt} {level : Nat} {it : Item} {next : Next}
    (hi : m.items[level]? = some it) :
    (∃ ext, Ext m st (callIndex st level it.format next).2 ext) ∧
    ((level, next), (callIndex st level it.format next).1) ∈ (callIndex st level it.format next).2.map := by
  unfold callIndex
  cases h : mapGet (level, next) st.map with
  | some n => exact ⟨⟨[], Ext.refl m st⟩, mapGet_mem h⟩
  | none =>
    refine ⟨⟨[(it.format, next)], ?_⟩, by simp⟩
    constructor
    · simp [queueCompile]
    · simp [queueCompile, entries]
    · intro x hx; simp [queueCompile, hx]
    · intro x hx
      simp only [queueCompile, List.mem_cons] at hx
      rcases hx with rfl | hx
      · exact .inr ⟨it, 0, hi, by simp, by simp⟩
      · exact .inl hx

/-- what a successful compilation step guarantees -/
def Good (m : Module) (st st' : CompSt) (Q : List ((Nat × Next) × Nat) → Prop) : Prop :=
  (∃ ext, Ext m st st' ext) ∧ ∀ M, (∀ x ∈ st'.map, x ∈ M) → Q M

theorem Good.pure {m : Module} {st : CompSt} {Q : List ((Nat × Next) × Nat) → Prop} (h : ∀ M, Q M) :
    Good m st st Q := ⟨⟨[], Ext.refl m st⟩, fun M _ => h M⟩

theorem Good.mono {m : Module} {st st' : CompSt} {Q Q' : List ((Nat × Next) × Nat) → Prop}
    (h : Good m st st' Q) (hq : ∀ M, Q M → Q' M) : Good m st st' Q' :=
  ⟨h.1, fun M hM => hq M (h.2 M hM)⟩

theorem Good.seq {m : Module} {s1 s2 s3 : CompSt} {Q Q' Q'' : List ((Nat × Next) × Nat) → Prop}
    (h1 : Good m s1 s2 Q) (h2 : Good m s2 s3 Q') (hq : ∀ M, Q M → Q' M → Q'' M) : Good m s1 s3 Q'' := by
  obtain ⟨⟨a, ha⟩, h1⟩ := h1
  obtain ⟨⟨b, hb⟩, h2⟩ := h2
  exact ⟨⟨a ++ b, ha.trans hb⟩, fun M hM => hq M (h1 M fun x hx => hM x (hb.map x hx)) (h2 M hM)⟩

theorem lift_eq_ok {ε α : Type} {x : Run α} {a : α} : (Outcome.lift x : Outcome ε α) = .ok a ↔ x = .ok a := by
  cases x with
  | ok b => simp [Outcome.lift]
  | err e => cases e
  | panic => simp [Outcome.lift]
  | fuel => simp [Outcome.lift]

theorem unwrap_eq_ok {α : Type} {x : Option α} {a : α} : Panicky.unwrap x = .ok a ↔ x = some a := by
  cases x <;> simp [Panicky.unwrap]

theorem buildOrErr_eq_ok {m : Module} {o : BuildOpts} {fs : List Format} {next : Next} {t : MatchTree} :
    buildOrErr m o fs next = .ok t ↔ MatchTree.build m o.ord o.fuel fs next = .ok (some t) := by
  unfold buildOrErr
  simp only [Outcome.bind_eq_ok, lift_eq_ok, Outcome.ofOption_eq_ok]
  constructor
  · rintro ⟨a, h, rfl⟩; exact h
  · intro h; exact ⟨_, h, rfl⟩

local macro "one " h:ident f:term : tactic =>
  `(tactic| (
    obtain ⟨⟨d1, s1⟩, h1, h2⟩ := Outcome.bind_eq_ok.1 $h
    cases h2
    exact ($f h1).mono fun M hM => by constructor; first | exact hM | assumption))

mutual
theorem compileFormat_good [DecidableEq Next] (m : Module) (o : BuildOpts) (f : Format) (next : Next)
    (st : CompSt) (d : Decoder) (st' : CompSt) (h : compileFormat m o f next st = .ok (d, st')) :
    Good m st st' fun M => Compiles (.of m o M) f next d := by
  match f with
  | .itemVar level args views =>
    simp only [compileFormat] at h
    obtain ⟨it, h1, h⟩ := Outcome.bind_eq_ok.1 h
    obtain ⟨dep, h2, h⟩ := Outcome.bind_eq_ok.1 h
    have h1 := unwrap_eq_ok.1 (Outcome.ofPanicky_eq_ok.1 h1)
    have h2 := lift_eq_ok.1 h2
    simp only [Outcome.ok.injEq, Prod.mk.injEq] at h
    obtain ⟨rfl, rfl⟩ := h
    have := callIndex_ext (st := st) (next := if dep then next else .empty) h1
    exact ⟨this.1, fun M hM => .itemVar h1 h2 (hM _ this.2)⟩
  | .phantom _ => simp only [compileFormat] at h; cases h; exact .pure fun M => .phantom
  | .fail => simp only [compileFormat] at h; cases h; exact .pure fun M => .fail
  | .decodeBytes e f => simp only [compileFormat] at h; one h (compileFormat_good m o f .empty st _ _)
  | .parseFromView e f => simp only [compileFormat] at h; one h (compileFormat_good m o f .empty st _ _)
  | .pos => simp only [compileFormat] at h; cases h; exact .pure fun M => .pos
  | .letView x f => simp only [compileFormat] at h; one h (compileFormat_good m o f next st _ _)
  | .endOfInput => simp only [compileFormat] at h; cases h; exact .pure fun M => .endOfInput
  | .align _ => simp only [compileFormat] at h; cases h; exact .pure fun M => .align
  | .byte _ => simp only [compileFormat] at h; cases h; exact .pure fun M => .byte
  | .skipRemainder => simp only [compileFormat] at h; cases h; exact .pure fun M => .skipRemainder
  | .variant l f => simp only [compileFormat] at h; one h (compileFormat_good m o f next st _ _)
  | .union fs =>
    simp only [compileFormat] at h
    obtain ⟨⟨ds, s1⟩, h1, h⟩ := Outcome.bind_eq_ok.1 h
    obtain ⟨t, h2, h⟩ := Outcome.bind_eq_ok.1 h
    cases h
    exact (compileAll_good m o fs next st _ _ h1).mono fun M hM => .union hM (buildOrErr_eq_ok.1 h2)
  | .unionNondet fs =>
    simp only [compileFormat] at h
    obtain ⟨⟨ds, s1⟩, h1, h⟩ := Outcome.bind_eq_ok.1 h
    cases h
    exact (compileAll_good m o fs next st _ _ h1).mono fun M hM => .unionNondet hM
  | .tuple fs =>
    simp only [compileFormat] at h
    obtain ⟨⟨ds, s1⟩, h1, h⟩ := Outcome.bind_eq_ok.1 h
    cases h
    exact (compileFields_good m o fs next st _ _ h1).mono fun M hM => .tuple hM
  | .sequence fs =>
    simp only [compileFormat] at h
    obtain ⟨⟨ds, s1⟩, h1, h⟩ := Outcome.bind_eq_ok.1 h
    cases h
    exact (compileFields_good m o fs next st _ _ h1).mono fun M hM => .sequence hM
  | .repeat_ a =>
    simp only [compileFormat] at h
    obtain ⟨nl, h0, h⟩ := Outcome.bind_eq_ok.1 h
    have h0 := Outcome.ofPanicky_eq_ok.1 h0
    cases nl with
    | true => cases h
    | false =>
      obtain ⟨⟨d1, s1⟩, h1, h⟩ := Outcome.bind_eq_ok.1 h
      obtain ⟨t, h2, h⟩ := Outcome.bind_eq_ok.1 h
      cases h
      exact (compileFormat_good m o a _ st _ _ h1).mono fun M hM => .repeat_ h0 hM (buildOrErr_eq_ok.1 h2)
  | .repeat1 a =>
    simp only [compileFormat] at h
    obtain ⟨nl, h0, h⟩ := Outcome.bind_eq_ok.1 h
    have h0 := Outcome.ofPanicky_eq_ok.1 h0
    cases nl with
    | true => cases h
    | false =>
      obtain ⟨⟨d1, s1⟩, h1, h⟩ := Outcome.bind_eq_ok.1 h
      obtain ⟨t, h2, h⟩ := Outcome.bind_eq_ok.1 h
      cases h
      exact (compileFormat_good m o a _ st _ _ h1).mono fun M hM => .repeat1 h0 hM (buildOrErr_eq_ok.1 h2)
  | .repeatCount e a => simp only [compileFormat] at h; one h (compileFormat_good m o a _ st _ _)
  | .repeatBetween x y a =>
    simp only [compileFormat] at h
    obtain ⟨bx, hx, h⟩ := Outcome.bind_eq_ok.1 h
    obtain ⟨min, hmin, h⟩ := Outcome.bind_eq_ok.1 h
    obtain ⟨b2, hy, h⟩ := Outcome.bind_eq_ok.1 h
    obtain ⟨max, hmax, h⟩ := Outcome.bind_eq_ok.1 h
    obtain ⟨⟨d1, s1⟩, h1, h⟩ := Outcome.bind_eq_ok.1 h
    obtain ⟨t0, h2, h⟩ := Outcome.bind_eq_ok.1 h
    obtain ⟨t, h3, h⟩ := Outcome.bind_eq_ok.1 h
    cases h
    have hx := Outcome.ofPanicky_eq_ok.1 hx
    have hy := Outcome.ofPanicky_eq_ok.1 hy
    have hmin := unwrap_eq_ok.1 (Outcome.ofPanicky_eq_ok.1 hmin)
    have hmax := unwrap_eq_ok.1 (Outcome.ofPanicky_eq_ok.1 hmax)
    have h3 := unwrap_eq_ok.1 (Outcome.ofPanicky_eq_ok.1 h3)
    subst h3
    exact (compileFormat_good m o a _ st _ _ h1).mono fun M hM =>
      .repeatBetween ⟨_, hx, hmin⟩ ⟨_, hy, hmax⟩ hM (lift_eq_ok.1 h2)
  | .repeatUntilLast e a => simp only [compileFormat] at h; one h (compileFormat_good m o a _ st _ _)
  | .forEach e l a => simp only [compileFormat] at h; one h (compileFormat_good m o a _ st _ _)
  | .repeatUntilSeq e a => simp only [compileFormat] at h; one h (compileFormat_good m o a _ st _ _)
  | .accumUntil e1 e2 e3 _ a => simp only [compileFormat] at h; one h (compileFormat_good m o a _ st _ _)
  | .maybe e a => simp only [compileFormat] at h; one h (compileFormat_good m o a _ st _ _)
  | .peek a => simp only [compileFormat] at h; one h (compileFormat_good m o a _ st _ _)
  | .peekNot a =>
    simp only [compileFormat] at h
    obtain ⟨b, h0, h⟩ := Outcome.bind_eq_ok.1 h
    have h0 := Outcome.ofPanicky_eq_ok.1 h0
    split at h
    · next hb =>
      obtain ⟨⟨d1, s1⟩, h1, h⟩ := Outcome.bind_eq_ok.1 h
      cases h
      exact (compileFormat_good m o a _ st _ _ h1).mono fun M hM => .peekNot ⟨b, h0, hb⟩ hM
    · cases h
  | .slice e a => simp only [compileFormat] at h; one h (compileFormat_good m o a _ st _ _)
  | .bits a => simp only [compileFormat] at h; one h (compileFormat_good m o a _ st _ _)
  | .withRelativeOffset e1 e2 a => simp only [compileFormat] at h; one h (compileFormat_good m o a _ st _ _)
  | .map a e => simp only [compileFormat] at h; one h (compileFormat_good m o a _ st _ _)
  | .where_ a e b => simp only [compileFormat] at h; one h (compileFormat_good m o a _ st _ _)
  | .enforce a => simp only [compileFormat] at h; one h (compileFormat_good m o a _ st _ _)
  | .permit a e => simp only [compileFormat] at h; one h (compileFormat_good m o a _ st _ _)
  | .compute e => simp only [compileFormat] at h; cases h; exact .pure fun M => .compute
  | .let_ x e a => simp only [compileFormat] at h; one h (compileFormat_good m o a _ st _ _)
  | .match_ head fs =>
    simp only [compileFormat] at h
    obtain ⟨⟨ds, s1⟩, h1, h⟩ := Outcome.bind_eq_ok.1 h
    cases h
    exact (compileBranches_good m o fs next st _ _ h1).mono fun M hM => .match_ hM
  | .dynamic x ls vs a => simp only [compileFormat] at h; one h (compileFormat_good m o a _ st _ _)
  | .apply x => simp only [compileFormat] at h; cases h; exact .pure fun M => .apply
  | .letFormat a x b =>
    simp only [compileFormat] at h
    obtain ⟨⟨d1, s1⟩, h1, h⟩ := Outcome.bind_eq_ok.1 h
    obtain ⟨⟨d2, s2⟩, h2, h⟩ := Outcome.bind_eq_ok.1 h
    cases h
    exact (compileFormat_good m o a _ st _ _ h1).seq (compileFormat_good m o b _ s1 _ _ h2)
      fun M h1 h2 => .letFormat h1 h2
  | .monadSeq a b =>
    simp only [compileFormat] at h
    obtain ⟨⟨d1, s1⟩, h1, h⟩ := Outcome.bind_eq_ok.1 h
    obtain ⟨⟨d2, s2⟩, h2, h⟩ := Outcome.bind_eq_ok.1 h
    cases h
    exact (compileFormat_good m o a _ st _ _ h1).seq (compileFormat_good m o b _ s1 _ _ h2)
      fun M h1 h2 => .monadSeq h1 h2
  | .hint a =>
    simp only [compileFormat] at h
    exact (compileFormat_good m o a _ st _ _ h).mono fun M hM => .hint hM
  | .liftedNone => simp only [compileFormat] at h; cases h; exact .pure fun M => .liftedNone
  | .liftedSome a => simp only [compileFormat] at h; one h (compileFormat_good m o a _ st _ _)
  | .captureBytes _ _ => simp only [compileFormat] at h; cases h; exact .pure fun M => .captureBytes
  | .readArray _ _ _ => simp only [compileFormat] at h; cases h; exact .pure fun M => .readArray
  | .reifyView _ => simp only [compileFormat] at h; cases h; exact .pure fun M => .reifyView

theorem compileAll_good [DecidableEq Next] (m : Module) (o : BuildOpts) (fs : List Format) (next : Next)
    (st : CompSt) (ds : List Decoder) (st' : CompSt) (h : compileAll m o fs next st = .ok (ds, st')) :
    Good m st st' fun M => CompilesAll (.of m o M) fs next ds := by
  match fs with
  | [] => simp only [compileAll] at h; cases h; exact .pure fun M => .anil
  | f :: fs =>
    simp only [compileAll] at h
    obtain ⟨⟨d1, s1⟩, h1, h⟩ := Outcome.bind_eq_ok.1 h
    obtain ⟨⟨d2, s2⟩, h2, h⟩ := Outcome.bind_eq_ok.1 h
    cases h
    exact (compileFormat_good m o f _ st _ _ h1).seq (compileAll_good m o fs _ s1 _ _ h2)
      fun M h1 h2 => .acons h1 h2

theorem compileFields_good [DecidableEq Next] (m : Module) (o : BuildOpts) (fs : List Format) (next : Next)
    (st : CompSt) (ds : List Decoder) (st' : CompSt) (h : compileFields m o fs next st = .ok (ds, st')) :
    Good m st st' fun M => CompilesFields (.of m o M) fs next ds := by
  match fs with
  | [] => simp only [compileFields] at h; cases h; exact .pure fun M => .fnil
  | f :: fs =>
    simp only [compileFields] at h
    obtain ⟨⟨d1, s1⟩, h1, h⟩ := Outcome.bind_eq_ok.1 h
    obtain ⟨⟨d2, s2⟩, h2, h⟩ := Outcome.bind_eq_ok.1 h
    cases h
    exact (compileFormat_good m o f _ st _ _ h1).seq (compileFields_good m o fs _ s1 _ _ h2)
      fun M h1 h2 => .fcons h1 h2

theorem compileBranches_good [DecidableEq Next] (m : Module) (o : BuildOpts) (fs : List (Pattern × Format))
    (next : Next) (st : CompSt) (ds : List (Pattern × Decoder)) (st' : CompSt)
    (h : compileBranches m o fs next st = .ok (ds, st')) :
    Good m st st' fun M => CompilesBranches (.of m o M) fs next ds := by
  match fs with
  | [] => simp only [compileBranches] at h; cases h; exact .pure fun M => .bnil
  | (p, f) :: fs =>
    simp only [compileBranches] at h
    obtain ⟨⟨d1, s1⟩, h1, h⟩ := Outcome.bind_eq_ok.1 h
    obtain ⟨⟨d2, s2⟩, h2, h⟩ := Outcome.bind_eq_ok.1 h
    cases h
    exact (compileFormat_good m o f _ st _ _ h1).seq (compileBranches_good m o fs _ s1 _ _ h2)
      fun M h1 h2 => .bcons h1 h2
end

/-- State of the compiler between two rounds of its main loop: `tgt` tells what every slot is for. -/
structure Inv (m : Module) (o : BuildOpts) (st : CompSt) (tgt : List (Format × Next)) : Prop where
  len : st.decoders.length = tgt.length
  queue : ∀ e ∈ st.queue, tgt[e.2.2]? = some (e.1, e.2.1)
  nodup : (st.queue.map (·.2.2)).Nodup
  map : ∀ x ∈ st.map, ∃ it, m.items[x.1.1]? = some it ∧ tgt[x.2]? = some (it.format, x.1.2)
  done : ∀ k t, tgt[k]? = some t → k ∉ st.queue.map (·.2.2) →
    ∃ d, st.decoders[k]? = some d ∧ ∀ M, (∀ x ∈ st.map, x ∈ M) → Compiles (.of m o M) t.1 t.2 d

theorem entries_ix (a : List (Format × Next)) (n k : Nat) :
    k ∈ (entries n a).map (·.2.2) ↔ n ≤ k ∧ k < n + a.length := by
  simp only [List.mem_map, mem_entries]
  constructor
  · rintro ⟨e, ⟨i, h1, h2⟩, rfl⟩
    have := (List.getElem?_eq_some_iff.1 h1).1
    omega
  · rintro ⟨h1, h2⟩
    have hk : k - n < a.length := by omega
    refine ⟨(a[k - n].1, a[k - n].2, k), ⟨k - n, ?_, by simp only []; omega⟩, rfl⟩
    simp [List.getElem?_eq_getElem hk]

theorem entries_nodup (a : List (Format × Next)) (n : Nat) : ((entries n a).map (·.2.2)).Nodup := by
  induction a generalizing n with
  | nil => simp [entries]
  | cons p a ih =>
    obtain ⟨f, x⟩ := p
    simp only [entries, List.map_append, List.map_cons, List.map_nil]
    rw [List.nodup_append]
    refine ⟨ih _, by simp, ?_⟩
    intro b hb c hc
    rw [entries_ix] at hb
    simp at hc
    omega

theorem drain_inv [DecidableEq Next] (m : Module) (o : BuildOpts) (fuel : Nat) (st st' : CompSt)
    (tgt : List (Format × Next)) (hi : Inv m o st tgt) (h : drain m o fuel st = .ok st') :
    ∃ ext, Inv m o st' (tgt ++ ext) ∧ st'.queue = [] := by
  induction fuel generalizing st tgt with
  | zero => simp [drain] at h
  | succ n ih =>
    simp only [drain] at h
    cases hq : st.queue with
    | nil => rw [hq] at h; simp only [] at h; cases h; exact ⟨[], by simpa using hi, hq⟩
    | cons e rest =>
      obtain ⟨f, next, k⟩ := e
      rw [hq] at h
      simp only [] at h
      obtain ⟨⟨d, s1⟩, h1, h⟩ := Outcome.bind_eq_ok.1 h
      obtain ⟨⟨ext, hext⟩, hc⟩ := compileFormat_good m o f next _ _ _ h1
      have hk := hi.queue (f, next, k) (by rw [hq]; simp)
      simp only [] at hk
      have hklt : k < tgt.length := (List.getElem?_eq_some_iff.1 hk).1
      have hnd : k ∉ rest.map (·.2.2) ∧ (rest.map (·.2.2)).Nodup := by
        have := hi.nodup; rw [hq] at this; simpa using this
      have hrest : ∀ j ∈ rest.map (·.2.2), j < tgt.length := by
        intro j hj
        obtain ⟨e, he, rfl⟩ := List.mem_map.1 hj
        exact (List.getElem?_eq_some_iff.1 (hi.queue e (by rw [hq]; simp [he]))).1
      have hlen := hi.len
      have hinv : Inv m o { s1 with decoders := s1.decoders.set k d } (tgt ++ ext) := by
        constructor
        · simp [hext.decoders, hlen]
        · intro e he
          simp only [] at he
          rw [hext.queue] at he
          rcases List.mem_append.1 he with he | he
          · obtain ⟨i, h2, h3⟩ := mem_entries.1 he
            simp only [] at h3
            rw [List.getElem?_append_right (by omega)]
            rw [show e.2.2 - tgt.length = i by omega]; exact h2
          · have := hi.queue e (by rw [hq]; simp only [] at he; exact List.mem_cons_of_mem _ he)
            rw [List.getElem?_append_left (List.getElem?_eq_some_iff.1 this).1, this]
        · simp only []
          rw [hext.queue, List.map_append, List.nodup_append]
          refine ⟨entries_nodup _ _, hnd.2, ?_⟩
          intro a ha b hb
          rw [entries_ix] at ha
          have := hrest b hb
          simp only [] at ha
          omega
        · intro x hx
          rcases hext.targets x hx with h2 | ⟨it, i, h2, h3, h4⟩
          · obtain ⟨it, h3, h4⟩ := hi.map x h2
            exact ⟨it, h3, by rw [List.getElem?_append_left (List.getElem?_eq_some_iff.1 h4).1, h4]⟩
          · refine ⟨it, h2, ?_⟩
            simp only [] at h3
            rw [List.getElem?_append_right (by omega), show x.2 - tgt.length = i by omega]; exact h4
        · intro j t ht hj
          simp only [] at hj
          rw [hext.queue, List.map_append, List.mem_append, entries_ix] at hj
          simp only [not_or] at hj
          have hjlt : j < tgt.length := by
            have := (List.getElem?_eq_some_iff.1 ht).1
            rw [List.length_append] at this
            omega
          rw [List.getElem?_append_left hjlt] at ht
          by_cases hjk : j = k
          · subst hjk
            rw [hk] at ht; cases ht
            refine ⟨d, ?_, fun M hM => hc M hM⟩
            rw [List.getElem?_set_self (by rw [hext.decoders]; simp; omega)]
          · obtain ⟨d', h2, h3⟩ := hi.done j t ht (by
              rw [hq]; simp only [List.map_cons, List.mem_cons, not_or]; exact ⟨hjk, hj.2⟩)
            refine ⟨d', ?_, fun M hM => h3 M fun x hx => hM x (hext.map x hx)⟩
            rw [List.getElem?_set_ne (fun h => hjk h.symm), hext.decoders,
              List.getElem?_append_left (List.getElem?_eq_some_iff.1 h2).1]
            exact h2
      obtain ⟨ext', h3, h4⟩ := ih _ _ hinv h
      exact ⟨ext ++ ext', by rw [← List.append_assoc]; exact h3, h4⟩

/-- A compiled program is consistent: its first decoder is a decoder for the format it was compiled
from, and every decoder called is a decoder for the item it stands for. -/
theorem compileProgram_spec [DecidableEq Next] (m : Module) (o : BuildOpts) (fuel : Nat) (f : Format)
    (prog : List Decoder) (h : compileProgram m o fuel f = .ok prog) :
    ∃ M, (∃ d, prog[0]? = some d ∧ Compiles (.of m o M) f .empty d) ∧
      ∀ level next k, ((level, next), k) ∈ M → ∃ it d, m.items[level]? = some it ∧ prog[k]? = some d ∧
        Compiles (.of m o M) it.format next d := by
  simp only [compileProgram] at h
  obtain ⟨st, h1, h⟩ := Outcome.bind_eq_ok.1 h
  cases h
  have hi : Inv m o (queueCompile new f .empty).2 [(f, .empty)] := by
    constructor
    · rfl
    · intro e he
      simp [queueCompile, new] at he
      subst he; rfl
    · simp [queueCompile, new]
    · intro x hx; simp [queueCompile, new] at hx
    · intro k t ht hk
      simp [queueCompile, new] at hk
      have := (List.getElem?_eq_some_iff.1 ht).1
      simp at this; omega
  obtain ⟨ext, hinv, hq⟩ := drain_inv m o fuel _ _ _ hi h1
  refine ⟨st.map, ?_, ?_⟩
  · obtain ⟨d, h2, h3⟩ := hinv.done 0 (f, .empty) (by simp) (by rw [hq]; simp)
    exact ⟨d, h2, h3 _ fun _ h => h⟩
  · intro level next k hk
    obtain ⟨it, h2, h3⟩ := hinv.map _ hk
    obtain ⟨d, h4, h5⟩ := hinv.done k _ h3 (by rw [hq]; simp)
    exact ⟨it, d, h2, h4, h5 _ fun _ h => h⟩

/-- The decoder made at run time for a Huffman code is a decoder for that code. -/
theorem compileOne_spec [DecidableEq Next] (o : BuildOpts) (f : Format) (d : Decoder)
    (h : compileOne o f = .ok (some d)) : ∃ M, Compiles (.of Module.empty o M) f .empty d := by
  simp only [compileOne] at h
  split at h
  · next r hr =>
    obtain ⟨d1, st⟩ := r
    cases h
    exact ⟨st.map, (compileFormat_good _ _ _ _ _ _ _ hr).2 _ fun _ h => h⟩
  · cases h
  · cases h
  · cases h

end Compiler
end Doodle
