import Verif.Lemmas.Compile
import Verif.Lemmas.TypedTree

/-!
The programs compiled by the code generator's compiler and by the interpreter's compiler are related decoder by
decoder.
-/

namespace Doodle
namespace TCompiler

open GTree (NRel)

variable {τ : Type}

/-- trees that choose alike -/
def TreeEq (t t' : MatchTree) : Prop := ∀ w, t.matchesBytes w = t'.matchesBytes w

mutual
/-- decoders that differ only in their calls, related by `C`, and in the shape of their prefix trees -/
inductive DRel (C : Nat → Nat → Prop) : Decoder → Decoder → Prop
  | call {k k' args views} : C k k' → DRel C (.call k args views) (.call k' args views)
  | pos : DRel C .pos .pos
  | fail : DRel C .fail .fail
  | endOfInput : DRel C .endOfInput .endOfInput
  | align {n} : DRel C (.align n) (.align n)
  | byte {bs} : DRel C (.byte bs) (.byte bs)
  | variant {l d d'} : DRel C d d' → DRel C (.variant l d) (.variant l d')
  | parallel {ds ds'} : DRelAll C ds ds' → DRel C (.parallel ds) (.parallel ds')
  | branch {t t' ds ds'} : TreeEq t t' → DRelAll C ds ds' → DRel C (.branch t ds) (.branch t' ds')
  | tuple {ds ds'} : DRelAll C ds ds' → DRel C (.tuple ds) (.tuple ds')
  | sequence {ds ds'} : DRelAll C ds ds' → DRel C (.sequence ds) (.sequence ds')
  | while_ {t t' d d'} : TreeEq t t' → DRel C d d' → DRel C (.while_ t d) (.while_ t' d')
  | until_ {t t' d d'} : TreeEq t t' → DRel C d d' → DRel C (.until_ t d) (.until_ t' d')
  | repeatCount {e d d'} : DRel C d d' → DRel C (.repeatCount e d) (.repeatCount e d')
  | repeatUntilLast {e d d'} : DRel C d d' → DRel C (.repeatUntilLast e d) (.repeatUntilLast e d')
  | repeatUntilSeq {e d d'} : DRel C d d' → DRel C (.repeatUntilSeq e d) (.repeatUntilSeq e d')
  | maybe {e d d'} : DRel C d d' → DRel C (.maybe e d) (.maybe e d')
  | peek {d d'} : DRel C d d' → DRel C (.peek d) (.peek d')
  | peekNot {d d'} : DRel C d d' → DRel C (.peekNot d) (.peekNot d')
  | slice {e d d'} : DRel C d d' → DRel C (.slice e d) (.slice e d')
  | bits {d d'} : DRel C d d' → DRel C (.bits d) (.bits d')
  | withRelativeOffset {b o d d'} : DRel C d d' → DRel C (.withRelativeOffset b o d) (.withRelativeOffset b o d')
  | map {d d' e} : DRel C d d' → DRel C (.map d e) (.map d' e)
  | where_ {d d' e b} : DRel C d d' → DRel C (.where_ d e b) (.where_ d' e b)
  | compute {e} : DRel C (.compute e) (.compute e)
  | let_ {x e d d'} : DRel C d d' → DRel C (.let_ x e d) (.let_ x e d')
  | match_ {e bs bs'} : DRelBranches C bs bs' → DRel C (.match_ e bs) (.match_ e bs')
  | dynamic {x l v d d'} : DRel C d d' → DRel C (.dynamic x l v d) (.dynamic x l v d')
  | apply {x} : DRel C (.apply x) (.apply x)
  | repeatBetween {t t' x y d d'} : TreeEq t t' → DRel C d d' →
      DRel C (.repeatBetween t x y d) (.repeatBetween t' x y d')
  | forEach {e l d d'} : DRel C d d' → DRel C (.forEach e l d) (.forEach e l d')
  | skipRemainder : DRel C .skipRemainder .skipRemainder
  | decodeBytes {e d d'} : DRel C d d' → DRel C (.decodeBytes e d) (.decodeBytes e d')
  | parseFromView {v d d'} : DRel C d d' → DRel C (.parseFromView v d) (.parseFromView v d')
  | letFormat {x d d' e e'} : DRel C d d' → DRel C e e' → DRel C (.letFormat d x e) (.letFormat d' x e')
  | monadSeq {d d' e e'} : DRel C d d' → DRel C e e' → DRel C (.monadSeq d e) (.monadSeq d' e')
  | accumUntil {e1 e2 e3 d d'} : DRel C d d' → DRel C (.accumUntil e1 e2 e3 d) (.accumUntil e1 e2 e3 d')
  | liftedNone : DRel C .liftedNone .liftedNone
  | liftedSome {d d'} : DRel C d d' → DRel C (.liftedSome d) (.liftedSome d')
  | letView {x d d'} : DRel C d d' → DRel C (.letView x d) (.letView x d')
  | captureBytes {v e} : DRel C (.captureBytes v e) (.captureBytes v e)
  | readArray {v e k} : DRel C (.readArray v e k) (.readArray v e k)
  | reifyView {v} : DRel C (.reifyView v) (.reifyView v)
  | phantom : DRel C .phantom .phantom
  | enforce {d d'} : DRel C d d' → DRel C (.enforce d) (.enforce d')
  | permit {d d' e} : DRel C d d' → DRel C (.permit d e) (.permit d' e)

inductive DRelAll (C : Nat → Nat → Prop) : List Decoder → List Decoder → Prop
  | nil : DRelAll C [] []
  | cons {d d' ds ds'} : DRel C d d' → DRelAll C ds ds' → DRelAll C (d :: ds) (d' :: ds')

inductive DRelBranches (C : Nat → Nat → Prop) : List (Pattern × Decoder) → List (Pattern × Decoder) → Prop
  | nil : DRelBranches C [] []
  | cons {p d d' ds ds'} : DRel C d d' → DRelBranches C ds ds' → DRelBranches C ((p, d) :: ds) ((p, d') :: ds')
end

/-! ### byte sets -/

open TFormat in
mutual
theorem fit_bytes {m : Module} (f : TFormat τ) (h : f.Fit m) : f.erase.Each Format.BytesHere := by
  match f with
  | .byte bs => exact h
  | .variant _ _ f => exact ⟨trivial, fit_bytes f h.2⟩
  | .formatCall _ _ _ _ _ => exact trivial
  | .forEach _ _ _ f => exact ⟨trivial, fit_bytes f h.1⟩
  | .repeatCount _ _ f => exact ⟨trivial, fit_bytes f h.2⟩
  | .repeatBetween _ _ _ f => exact ⟨trivial, fit_bytes f h.2.2⟩
  | .slice _ _ f => exact ⟨trivial, fit_bytes f h.2⟩
  | .maybe _ _ f => exact ⟨trivial, fit_bytes f h.2⟩
  | .union _ fs => exact ⟨trivial, fit_bytesList fs h⟩
  | .unionNondet _ fs => exact ⟨trivial, fit_bytesList fs h⟩
  | .tuple _ fs => exact ⟨trivial, fit_bytesList fs h⟩
  | .sequence _ fs => exact ⟨trivial, fit_bytesList fs h⟩
  | .match_ _ _ fs => exact ⟨trivial, fit_bytesBranches fs h⟩
  | .letFormat _ f _ g => exact ⟨trivial, fit_bytes f h.1, fit_bytes g h.2⟩
  | .monadSeq _ f g => exact ⟨trivial, fit_bytes f h.1, fit_bytes g h.2⟩
  | .repeat_ _ f => exact ⟨trivial, fit_bytes f h⟩
  | .repeat1 _ f => exact ⟨trivial, fit_bytes f h⟩
  | .repeatUntilLast _ _ f => exact ⟨trivial, fit_bytes f h⟩
  | .repeatUntilSeq _ _ f => exact ⟨trivial, fit_bytes f h⟩
  | .accumUntil _ _ _ _ _ f => exact ⟨trivial, fit_bytes f h⟩
  | .peek _ f => exact ⟨trivial, fit_bytes f h⟩
  | .peekNot _ f => exact ⟨trivial, fit_bytes f h⟩
  | .bits _ f => exact ⟨trivial, fit_bytes f h⟩
  | .withRelativeOffset _ _ _ f => exact ⟨trivial, fit_bytes f h⟩
  | .map _ f _ => exact ⟨trivial, fit_bytes f h⟩
  | .where_ _ f _ _ => exact ⟨trivial, fit_bytes f h⟩
  | .let_ _ _ _ f => exact ⟨trivial, fit_bytes f h⟩
  | .dynamic _ _ _ _ f => exact ⟨trivial, fit_bytes f h⟩
  | .decodeBytes _ _ f => exact ⟨trivial, fit_bytes f h⟩
  | .parseFromView _ _ f => exact ⟨trivial, fit_bytes f h⟩
  | .hint _ f => exact ⟨trivial, fit_bytes f h⟩
  | .liftedSome _ f => exact ⟨trivial, fit_bytes f h⟩
  | .letView _ _ f => exact ⟨trivial, fit_bytes f h⟩
  | .phantom _ f => exact ⟨trivial, fit_bytes f h⟩
  | .enforce _ f => exact ⟨trivial, fit_bytes f h⟩
  | .permit _ f _ => exact ⟨trivial, fit_bytes f h⟩
  | .fail => exact trivial
  | .endOfInput => exact trivial
  | .align _ => exact trivial
  | .compute _ _ => exact trivial
  | .apply _ _ => exact trivial
  | .pos _ => exact trivial
  | .skipRemainder => exact trivial
  | .liftedNone _ => exact trivial
  | .captureBytes _ _ _ => exact trivial
  | .readArray _ _ _ _ => exact trivial
  | .reifyView _ _ => exact trivial

theorem fit_bytesList {m : Module} (fs : List (TFormat τ)) (h : FitList m fs) :
    Format.EachOf Format.BytesHere (eraseList fs) := by
  match fs with
  | [] => exact trivial
  | f :: fs => exact ⟨fit_bytes f h.1, fit_bytesList fs h.2⟩

theorem fit_bytesBranches {m : Module} (fs : List (Pattern × TFormat τ)) (h : FitBranches m fs) :
    Format.EachBranchOf Format.BytesHere (eraseBranches fs) := by
  match fs with
  | [] => exact trivial
  | (_, f) :: fs => exact ⟨fit_bytes f h.1, fit_bytesBranches fs h.2⟩
end

theorem eachOf_map {P : Format → Prop} {α : Type} (g : α → Format) (h : ∀ a, (g a).Each P) :
    ∀ l : List α, Format.EachOf P (l.map g)
  | [] => trivial
  | a :: l => ⟨h a, eachOf_map g h l⟩

theorem not_fail (f : TFormat τ) (h : ¬ f.IsFail) : f.compilesToFail = false := by
  match f with
  | .fail => exact absurd trivial h
  | .variant _ _ g => exact not_fail g h
  | .formatCall .. | .forEach .. | .endOfInput | .align _ | .byte _ | .union .. | .unionNondet .. | .tuple ..
  | .sequence .. | .repeat_ .. | .repeat1 .. | .repeatCount .. | .repeatBetween .. | .repeatUntilLast ..
  | .repeatUntilSeq .. | .maybe .. | .peek .. | .peekNot .. | .slice .. | .bits .. | .withRelativeOffset ..
  | .map .. | .where_ .. | .compute .. | .let_ .. | .match_ .. | .dynamic .. | .apply .. | .pos .. | .skipRemainder
  | .decodeBytes .. | .parseFromView .. | .letFormat .. | .monadSeq .. | .hint .. | .accumUntil .. | .liftedNone ..
  | .liftedSome .. | .letView .. | .captureBytes .. | .readArray .. | .reifyView .. | .phantom .. | .enforce ..
  | .permit .. => rfl

/-! ### the state of the compiler -/

/-- a typed format of item `level` -/
def Callee (m : Module) (level : Nat) (g : TFormat τ) : Prop :=
  ∃ it, m.items[level]? = some it ∧ g.erase = it.format ∧ g.Fit m

/-- queue entries for the targets `ext`, numbered from `n`; the last one is on top -/
def entries : Nat → List (TFormat τ × TNext τ) → List (TFormat τ × TNext τ × Nat)
  | _, [] => []
  | n, (f, x) :: r => entries (n + 1) r ++ [(f, x, n)]

theorem entries_append (a b : List (TFormat τ × TNext τ)) (n : Nat) :
    entries n (a ++ b) = entries (n + a.length) b ++ entries n a := by
  induction a generalizing n with
  | nil => simp [entries]
  | cons p a ih =>
    obtain ⟨f, x⟩ := p
    simp only [List.cons_append, entries, ih, List.length_cons, List.append_assoc]
    rw [show n + 1 + a.length = n + (a.length + 1) by omega]

theorem mem_entries {a : List (TFormat τ × TNext τ)} {n : Nat} {e : TFormat τ × TNext τ × Nat} :
    e ∈ entries n a ↔ ∃ i, a[i]? = some (e.1, e.2.1) ∧ e.2.2 = n + i := by
  induction a generalizing n with
  | nil => simp [entries]
  | cons p a ih =>
    obtain ⟨f, x⟩ := p
    simp only [entries, List.mem_append, ih, List.mem_singleton]
    constructor
    · rintro (⟨i, h1, h2⟩ | rfl)
      · exact ⟨i + 1, by simpa using h1, by omega⟩
      · exact ⟨0, by simp, by simp⟩
    · rintro ⟨i, h1, h2⟩
      cases i with
      | zero => right; simp at h1; obtain ⟨rfl, rfl⟩ := h1; simp at h2; rw [← h2]
      | succ i => left; exact ⟨i, by simpa using h1, by omega⟩

/-- `st'` extends `st` by slots for the targets `ext` -/
structure Ext (m : Module) (st st' : TCompSt τ) (ext : List (TFormat τ × TNext τ)) : Prop where
  decoders : st'.decoders = st.decoders ++ List.replicate ext.length .fail
  queue : st'.queue = entries st.decoders.length ext ++ st.queue
  map : ∀ x ∈ st.map, x ∈ st'.map
  targets : ∀ x ∈ st'.map, x ∈ st.map ∨ ∃ it i, Callee m x.1.1 it ∧
    x.2 = st.decoders.length + i ∧ ext[i]? = some (it, x.1.2)
  fit : ∀ t ∈ ext, t.1.Fit m

theorem Ext.refl (m : Module) (st : TCompSt τ) : Ext m st st [] :=
  ⟨by simp, by simp [entries], fun _ h => h, fun _ h => .inl h, (fun _ h => nomatch h)⟩

theorem Ext.trans {m : Module} {s1 s2 s3 : TCompSt τ} {a b : List (TFormat τ × TNext τ)}
    (h1 : Ext m s1 s2 a) (h2 : Ext m s2 s3 b) : Ext m s1 s3 (a ++ b) where
  decoders := by rw [h2.decoders, h1.decoders, List.append_assoc, List.length_append]; simp
  queue := by
    rw [h2.queue, h1.queue, entries_append, h1.decoders, List.append_assoc]
    simp
  map x hx := h2.map x (h1.map x hx)
  targets x hx := by
    rcases h2.targets x hx with h | ⟨it, i, h3, h4, h5⟩
    · rcases h1.targets x h with h | ⟨it, i, h3, h4, h5⟩
      · exact .inl h
      · exact .inr ⟨it, i, h3, h4, by rw [List.getElem?_append_left (List.getElem?_eq_some_iff.1 h5).1, h5]⟩
    · refine .inr ⟨it, a.length + i, h3, ?_, ?_⟩
      · rw [h4, h1.decoders]; simp; omega
      · rw [List.getElem?_append_right (by omega)]; simpa using h5
  fit t ht := (List.mem_append.1 ht).elim (h1.fit t) (h2.fit t)

theorem mapGet_mem [DecidableEq (TNext τ)] {key : Nat × TNext τ} {M : List ((Nat × TNext τ) × Nat)} {n : Nat}
    (h : mapGet key M = some n) : (key, n) ∈ M := by
  induction M with
  | nil => simp [mapGet] at h
  | cons p M ih =>
    obtain ⟨k, x⟩ := p
    simp only [mapGet] at h
    split at h
    · next e => simp at h; subst h; subst e; simp
    · exact List.mem_cons_of_mem _ (ih h)

theorem callIndex_ext [DecidableEq (TNext τ)] {m : Module} {st : TCompSt τ} {level : Nat} {it : TFormat τ} {next : TNext τ}
    (hi : Callee m level it) :
    (∃ ext, Ext m st (callIndex st level it next).2 ext) ∧
    ((level, next), (callIndex st level it next).1) ∈ (callIndex st level it next).2.map := by
  unfold callIndex
  cases h : mapGet (level, next) st.map with
  | some n => exact ⟨⟨[], Ext.refl m st⟩, mapGet_mem h⟩
  | none =>
    refine ⟨⟨[(it, next)], ?_⟩, by simp⟩
    constructor
    · simp [queueCompile]
    · simp [queueCompile, entries]
    · intro x hx; simp [queueCompile, hx]
    · intro x hx
      simp only [queueCompile, List.mem_cons] at hx
      rcases hx with rfl | hx
      · exact .inr ⟨it, 0, hi, by simp, by simp⟩
      · exact .inl hx
    · intro t ht
      rw [List.mem_singleton] at ht
      subst ht
      obtain ⟨_, _, _, h⟩ := hi
      exact h

/-- what a successful compilation step guarantees -/
def Good (m : Module) (st st' : TCompSt τ) (Q : List ((Nat × TNext τ) × Nat) → Prop) : Prop :=
  (∃ ext, Ext m st st' ext) ∧ ∀ M, (∀ x ∈ st'.map, x ∈ M) → Q M

theorem Good.pure {m : Module} {st : TCompSt τ} {Q : List ((Nat × TNext τ) × Nat) → Prop} (h : ∀ M, Q M) :
    Good m st st Q := ⟨⟨[], Ext.refl m st⟩, fun M _ => h M⟩

theorem Good.mono {m : Module} {st st' : TCompSt τ} {Q Q' : List ((Nat × TNext τ) × Nat) → Prop}
    (h : Good m st st' Q) (hq : ∀ M, Q M → Q' M) : Good m st st' Q' :=
  ⟨h.1, fun M hM => hq M (h.2 M hM)⟩

theorem Good.seq {m : Module} {s1 s2 s3 : TCompSt τ} {Q Q' Q'' : List ((Nat × TNext τ) × Nat) → Prop}
    (h1 : Good m s1 s2 Q) (h2 : Good m s2 s3 Q') (hq : ∀ M, Q M → Q' M → Q'' M) : Good m s1 s3 Q'' := by
  obtain ⟨⟨a, ha⟩, h1⟩ := h1
  obtain ⟨⟨b, hb⟩, h2⟩ := h2
  exact ⟨⟨a ++ b, ha.trans hb⟩, fun M hM => hq M (h1 M fun x hx => hM x (hb.map x hx)) (h2 M hM)⟩


theorem buildOrErr_eq_ok {m : Module} {o : TOpts τ} {fs : List Format} {next : TNext τ} {t : MatchTree} :
    buildOrErr m o fs next = .ok t ↔ TNext.build m o.ord o.base.fuel fs next = .ok (some t) := by
  unfold buildOrErr
  simp only [Outcome.bind_eq_ok, Compiler.lift_eq_ok, Outcome.ofOption_eq_ok]
  constructor
  · rintro ⟨a, h, rfl⟩; exact h
  · intro h; exact ⟨_, h, rfl⟩

/-- the calls that are related: to the same item, followed by related continuations if that matters -/
def CallRel (m : Module) (M : List ((Nat × Next) × Nat)) (M' : List ((Nat × TNext τ) × Nat)) (k k' : Nat) : Prop :=
  ∃ level nx tnx it, m.items[level]? = some it ∧ ((level, nx), k) ∈ M ∧ ((level, tnx), k') ∈ M' ∧
    (NRel m nx tnx ∨ it.format.NextFree m)

/-- a decoder made by the code generator's compiler is related to every decoder of the interpreter's compiler for the
same format -/
def Agree (m : Module) (o : BuildOpts) (M' : List ((Nat × TNext τ) × Nat)) (f : TFormat τ) (tnext : TNext τ)
    (d' : Decoder) : Prop :=
  ∀ M next d, (NRel m next tnext ∨ f.erase.NextFree m) → Compiles (.of m o M) f.erase next d →
    DRel (CallRel m M M') d d'

def AgreeAll (m : Module) (o : BuildOpts) (M' : List ((Nat × TNext τ) × Nat)) (fs : List (TFormat τ)) (tnext : TNext τ)
    (ds' : List Decoder) : Prop :=
  ∀ M next ds, (NRel m next tnext ∨ ∀ f ∈ TFormat.eraseList fs, f.NextFree m) →
    CompilesAll (.of m o M) (TFormat.eraseList fs) next ds → DRelAll (CallRel m M M') ds ds'

def AgreeFields (m : Module) (o : BuildOpts) (M' : List ((Nat × TNext τ) × Nat)) (fs : List (TFormat τ))
    (tnext : TNext τ) (ds' : List Decoder) : Prop :=
  ∀ M next ds, (NRel m next tnext ∨ ∀ f ∈ TFormat.eraseList fs, f.NextFree m) →
    CompilesFields (.of m o M) (TFormat.eraseList fs) next ds → DRelAll (CallRel m M M') ds ds'

def AgreeBranches (m : Module) (o : BuildOpts) (M' : List ((Nat × TNext τ) × Nat)) (fs : List (Pattern × TFormat τ))
    (tnext : TNext τ) (ds' : List (Pattern × Decoder)) : Prop :=
  ∀ M next ds, (NRel m next tnext ∨ ∀ p ∈ TFormat.eraseBranches fs, p.2.NextFree m) →
    CompilesBranches (.of m o M) (TFormat.eraseBranches fs) next ds → DRelBranches (CallRel m M M') ds ds'

theorem tree_agree {m : Module} {o : TOpts τ} (hm : m.BytesOk) (ho : o.base.ord.Valid) (ho' : o.ord.Valid)
    {fs : List Format} (hf : Format.EachOf Format.BytesHere fs) {M : List ((Nat × Next) × Nat)} {x : Next} {y : TNext τ}
    (hx : NRel m x y) {t t' : MatchTree} (h : (CRel.of m o.base M).tree fs x t)
    (h' : buildOrErr m o fs y = .ok t') : TreeEq t t' :=
  GTree.build_agree hm ho ho' hf hx h (buildOrErr_eq_ok.1 h')

theorem zip_map_self {α β : Type} : ∀ l : List (α × β), (l.map (·.1)).zip (l.map (·.2)) = l
  | [] => rfl
  | (_, _) :: l => by simp only [List.map_cons, List.zip_cons_cons, zip_map_self l]

mutual
theorem compileTyped_good [DecidableEq (TNext τ)] {m : Module} {o : TOpts τ} (hm : m.BytesOk)
    (ho : o.base.ord.Valid) (ho' : o.ord.Valid) (f : TFormat τ) (tnext : TNext τ) (st : TCompSt τ) (d' : Decoder)
    (st' : TCompSt τ) (hf : f.Fit m) (h : compileTyped m o f tnext st = .ok (d', st')) :
    Good m st st' fun M' => Agree m o.base M' f tnext d' := by
  match f with
  | .decodeBytes _ e a =>
    have hfa : a.Fit m := hf
    simp only [compileTyped] at h
    obtain ⟨⟨d1, s1⟩, h1, h2⟩ := Outcome.bind_eq_ok.1 h
    cases h2
    refine (compileTyped_good hm ho ho' a _ st _ _ hfa h1).mono fun M' hM' M next d hl hc => ?_
    simp only [TFormat.erase] at hl hc
    cases hc with | decodeBytes hc =>
    exact .decodeBytes (hM' M _ _ (.inl .empty) hc)
  | .parseFromView _ v a =>
    have hfa : a.Fit m := hf
    simp only [compileTyped] at h
    obtain ⟨⟨d1, s1⟩, h1, h2⟩ := Outcome.bind_eq_ok.1 h
    cases h2
    refine (compileTyped_good hm ho ho' a _ st _ _ hfa h1).mono fun M' hM' M next d hl hc => ?_
    simp only [TFormat.erase] at hl hc
    cases hc with | parseFromView hc =>
    exact .parseFromView (hM' M _ _ (.inl .empty) hc)
  | .letView _ x a =>
    have hfa : a.Fit m := hf
    simp only [compileTyped] at h
    obtain ⟨⟨d1, s1⟩, h1, h2⟩ := Outcome.bind_eq_ok.1 h
    cases h2
    refine (compileTyped_good hm ho ho' a _ st _ _ hfa h1).mono fun M' hM' M next d hl hc => ?_
    simp only [TFormat.erase] at hl hc
    cases hc with | letView hc =>
    exact .letView (hM' M _ _ (hl.imp id fun h => by cases h with | letView h => exact h) hc)
  | .repeatCount _ e a =>
    have hfa : a.Fit m := hf.2
    simp only [compileTyped] at h
    obtain ⟨⟨d1, s1⟩, h1, h2⟩ := Outcome.bind_eq_ok.1 h
    cases h2
    refine (compileTyped_good hm ho ho' a _ st _ _ hfa h1).mono fun M' hM' M next d hl hc => ?_
    simp only [TFormat.erase] at hl hc
    cases hc with | repeatCount hc =>
    exact .repeatCount (hM' M _ _ (hl.imp (.repeat_ (.typed hfa)) fun h => by cases h with | repeatCount h => exact h) hc)
  | .repeatUntilLast _ e a =>
    have hfa : a.Fit m := hf
    simp only [compileTyped] at h
    obtain ⟨⟨d1, s1⟩, h1, h2⟩ := Outcome.bind_eq_ok.1 h
    cases h2
    refine (compileTyped_good hm ho ho' a _ st _ _ hfa h1).mono fun M' hM' M next d hl hc => ?_
    simp only [TFormat.erase] at hl hc
    cases hc with | repeatUntilLast hc =>
    exact .repeatUntilLast (hM' M _ _ (hl.imp (.repeat_ (.typed hfa)) fun h => by cases h with | repeatUntilLast h => exact h) hc)
  | .forEach _ e l a =>
    have hfa : a.Fit m := hf.1
    simp only [compileTyped] at h
    obtain ⟨⟨d1, s1⟩, h1, h2⟩ := Outcome.bind_eq_ok.1 h
    cases h2
    refine (compileTyped_good hm ho ho' a _ st _ _ hfa h1).mono fun M' hM' M next d hl hc => ?_
    simp only [TFormat.erase] at hl hc
    cases hc with | forEach hc =>
    exact .forEach (hM' M _ _ (hl.imp (.repeat_ (.typed hfa)) fun h => by cases h with | forEach h => exact h) hc)
  | .repeatUntilSeq _ e a =>
    have hfa : a.Fit m := hf
    simp only [compileTyped] at h
    obtain ⟨⟨d1, s1⟩, h1, h2⟩ := Outcome.bind_eq_ok.1 h
    cases h2
    refine (compileTyped_good hm ho ho' a _ st _ _ hfa h1).mono fun M' hM' M next d hl hc => ?_
    simp only [TFormat.erase] at hl hc
    cases hc with | repeatUntilSeq hc =>
    exact .repeatUntilSeq (hM' M _ _ (hl.imp (.repeat_ (.typed hfa)) fun h => by cases h with | repeatUntilSeq h => exact h) hc)
  | .accumUntil _ e1 e2 e3 ty a =>
    have hfa : a.Fit m := hf
    simp only [compileTyped] at h
    obtain ⟨⟨d1, s1⟩, h1, h2⟩ := Outcome.bind_eq_ok.1 h
    cases h2
    refine (compileTyped_good hm ho ho' a _ st _ _ hfa h1).mono fun M' hM' M next d hl hc => ?_
    simp only [TFormat.erase] at hl hc
    cases hc with | accumUntil hc =>
    exact .accumUntil (hM' M _ _ (hl.imp (.repeat_ (.typed hfa)) fun h => by cases h with | accumUntil h => exact h) hc)
  | .peek _ a =>
    have hfa : a.Fit m := hf
    simp only [compileTyped] at h
    obtain ⟨⟨d1, s1⟩, h1, h2⟩ := Outcome.bind_eq_ok.1 h
    cases h2
    refine (compileTyped_good hm ho ho' a _ st _ _ hfa h1).mono fun M' hM' M next d hl hc => ?_
    simp only [TFormat.erase] at hl hc
    cases hc with | peek hc =>
    exact .peek (hM' M _ _ (.inl .empty) hc)
  | .slice _ e a =>
    have hfa : a.Fit m := hf.2
    simp only [compileTyped] at h
    obtain ⟨⟨d1, s1⟩, h1, h2⟩ := Outcome.bind_eq_ok.1 h
    cases h2
    refine (compileTyped_good hm ho ho' a _ st _ _ hfa h1).mono fun M' hM' M next d hl hc => ?_
    simp only [TFormat.erase] at hl hc
    cases hc with | slice hc =>
    exact .slice (hM' M _ _ (.inl .empty) hc)
  | .bits _ a =>
    have hfa : a.Fit m := hf
    simp only [compileTyped] at h
    obtain ⟨⟨d1, s1⟩, h1, h2⟩ := Outcome.bind_eq_ok.1 h
    cases h2
    refine (compileTyped_good hm ho ho' a _ st _ _ hfa h1).mono fun M' hM' M next d hl hc => ?_
    simp only [TFormat.erase] at hl hc
    cases hc with | bits hc =>
    exact .bits (hM' M _ _ (.inl .empty) hc)
  | .withRelativeOffset _ e1 e2 a =>
    have hfa : a.Fit m := hf
    simp only [compileTyped] at h
    obtain ⟨⟨d1, s1⟩, h1, h2⟩ := Outcome.bind_eq_ok.1 h
    cases h2
    refine (compileTyped_good hm ho ho' a _ st _ _ hfa h1).mono fun M' hM' M next d hl hc => ?_
    simp only [TFormat.erase] at hl hc
    cases hc with | withRelativeOffset hc =>
    exact .withRelativeOffset (hM' M _ _ (.inl .empty) hc)
  | .map _ a e =>
    have hfa : a.Fit m := hf
    simp only [compileTyped] at h
    obtain ⟨⟨d1, s1⟩, h1, h2⟩ := Outcome.bind_eq_ok.1 h
    cases h2
    refine (compileTyped_good hm ho ho' a _ st _ _ hfa h1).mono fun M' hM' M next d hl hc => ?_
    simp only [TFormat.erase] at hl hc
    cases hc with | map hc =>
    exact .map (hM' M _ _ (hl.imp id fun h => by cases h with | map h => exact h) hc)
  | .where_ _ a e b =>
    have hfa : a.Fit m := hf
    simp only [compileTyped] at h
    obtain ⟨⟨d1, s1⟩, h1, h2⟩ := Outcome.bind_eq_ok.1 h
    cases h2
    refine (compileTyped_good hm ho ho' a _ st _ _ hfa h1).mono fun M' hM' M next d hl hc => ?_
    simp only [TFormat.erase] at hl hc
    cases hc with | where_ hc =>
    exact .where_ (hM' M _ _ (hl.imp id fun h => by cases h with | where_ h => exact h) hc)
  | .enforce _ a =>
    have hfa : a.Fit m := hf
    simp only [compileTyped] at h
    obtain ⟨⟨d1, s1⟩, h1, h2⟩ := Outcome.bind_eq_ok.1 h
    cases h2
    refine (compileTyped_good hm ho ho' a _ st _ _ hfa h1).mono fun M' hM' M next d hl hc => ?_
    simp only [TFormat.erase] at hl hc
    cases hc with | enforce hc =>
    exact .enforce (hM' M _ _ (hl.imp id fun h => by cases h with | enforce h => exact h) hc)
  | .permit _ a e =>
    have hfa : a.Fit m := hf
    simp only [compileTyped] at h
    obtain ⟨⟨d1, s1⟩, h1, h2⟩ := Outcome.bind_eq_ok.1 h
    cases h2
    refine (compileTyped_good hm ho ho' a _ st _ _ hfa h1).mono fun M' hM' M next d hl hc => ?_
    simp only [TFormat.erase] at hl hc
    cases hc with | permit hc =>
    exact .permit (hM' M _ _ (hl.imp id fun h => by cases h with | permit h => exact h) hc)
  | .let_ _ x e a =>
    have hfa : a.Fit m := hf
    simp only [compileTyped] at h
    obtain ⟨⟨d1, s1⟩, h1, h2⟩ := Outcome.bind_eq_ok.1 h
    cases h2
    refine (compileTyped_good hm ho ho' a _ st _ _ hfa h1).mono fun M' hM' M next d hl hc => ?_
    simp only [TFormat.erase] at hl hc
    cases hc with | let_ hc =>
    exact .let_ (hM' M _ _ (hl.imp id fun h => by cases h with | let_ h => exact h) hc)
  | .dynamic _ x l v a =>
    have hfa : a.Fit m := hf
    simp only [compileTyped] at h
    obtain ⟨⟨d1, s1⟩, h1, h2⟩ := Outcome.bind_eq_ok.1 h
    cases h2
    refine (compileTyped_good hm ho ho' a _ st _ _ hfa h1).mono fun M' hM' M next d hl hc => ?_
    simp only [TFormat.erase] at hl hc
    cases hc with | dynamic hc =>
    exact .dynamic (hM' M _ _ (hl.imp id fun h => by cases h with | dynamic h => exact h) hc)
  | .liftedSome _ a =>
    have hfa : a.Fit m := hf
    simp only [compileTyped] at h
    obtain ⟨⟨d1, s1⟩, h1, h2⟩ := Outcome.bind_eq_ok.1 h
    cases h2
    refine (compileTyped_good hm ho ho' a _ st _ _ hfa h1).mono fun M' hM' M next d hl hc => ?_
    simp only [TFormat.erase] at hl hc
    cases hc with | liftedSome hc =>
    exact .liftedSome (hM' M _ _ (hl.imp id fun h => by cases h with | liftedSome h => exact h) hc)
  | .fail =>
    simp only [compileTyped] at h; cases h
    exact .pure fun M' M next d hl hc => by cases hc; exact .fail
  | .endOfInput =>
    simp only [compileTyped] at h; cases h
    exact .pure fun M' M next d hl hc => by cases hc; exact .endOfInput
  | .align _ =>
    simp only [compileTyped] at h; cases h
    exact .pure fun M' M next d hl hc => by cases hc; exact .align
  | .byte _ =>
    simp only [compileTyped] at h; cases h
    exact .pure fun M' M next d hl hc => by cases hc; exact .byte
  | .skipRemainder =>
    simp only [compileTyped] at h; cases h
    exact .pure fun M' M next d hl hc => by cases hc; exact .skipRemainder
  | .compute _ _ =>
    simp only [compileTyped] at h; cases h
    exact .pure fun M' M next d hl hc => by cases hc; exact .compute
  | .apply _ _ =>
    simp only [compileTyped] at h; cases h
    exact .pure fun M' M next d hl hc => by cases hc; exact .apply
  | .liftedNone _ =>
    simp only [compileTyped] at h; cases h
    exact .pure fun M' M next d hl hc => by cases hc; exact .liftedNone
  | .captureBytes _ _ _ =>
    simp only [compileTyped] at h; cases h
    exact .pure fun M' M next d hl hc => by cases hc; exact .captureBytes
  | .readArray _ _ _ _ =>
    simp only [compileTyped] at h; cases h
    exact .pure fun M' M next d hl hc => by cases hc; exact .readArray
  | .reifyView _ _ =>
    simp only [compileTyped] at h; cases h
    exact .pure fun M' M next d hl hc => by cases hc; exact .reifyView
  | .formatCall _ level args views g =>
    obtain ⟨it, hit, her, hargs, hviews, hg⟩ := hf
    simp only [compileTyped] at h
    obtain ⟨it', h1, h3⟩ := Outcome.bind_eq_ok.1 h
    obtain ⟨dep, h2, h4⟩ := Outcome.bind_eq_ok.1 h3
    clear h h3
    have h1 := Compiler.unwrap_eq_ok.1 (Outcome.ofPanicky_eq_ok.1 h1)
    have h2 := Compiler.lift_eq_ok.1 h2
    rw [hit] at h1
    cases h1
    simp only [Outcome.ok.injEq, Prod.mk.injEq] at h4
    obtain ⟨rfl, rfl⟩ := h4
    have hce : Callee m level g := ⟨it, hit, her, hg⟩
    have := callIndex_ext (st := st) (next := if dep then tnext else .empty) hce
    refine ⟨this.1, fun M' hM' M next d hl hc => ?_⟩
    have hmem := hM' _ this.2
    simp only [TFormat.erase] at hl hc
    cases hc with
    | @itemVar _ _ _ it2 _ dep2 k hi2 hd2 hk =>
      have hi2 : m.items[level]? = some it2 := hi2
      rw [hit] at hi2
      cases hi2
      have hd2 : it.format.dependsOnNext m o.base = .ok dep2 := hd2
      rw [h2] at hd2
      cases hd2
      have e1 : it.args.zip (args.map (·.2)) = args := by rw [← hargs]; exact zip_map_self args
      have e2 : it.views.zip (views.map (·.2)) = views := by rw [← hviews]; exact zip_map_self views
      rw [e1, e2]
      refine .call ⟨level, _, _, it, hit, hk, hmem, ?_⟩
      cases dep with
      | false => exact .inl .empty
      | true =>
        refine hl.imp id fun h => ?_
        cases h with | itemVar hi h =>
        rw [hit] at hi
        cases hi
        exact h
  | .phantom _ a =>
    have hfa : a.Fit m := hf
    simp only [compileTyped] at h
    obtain ⟨⟨d1, s1⟩, h1, h2⟩ := Outcome.bind_eq_ok.1 h
    cases h2
    refine (compileTyped_good hm ho ho' a _ st _ _ hfa h1).mono fun M' hM' M next d hl hc => ?_
    simp only [TFormat.erase] at hl hc
    cases hc
    exact .phantom
  | .pos ty =>
    simp only [compileTyped] at h
    split at h
    · cases h
      exact .pure fun M' M next d hl hc => by cases hc; exact .pos
    · cases h
  | .variant _ l a =>
    obtain ⟨hnf, hfa⟩ := hf
    simp only [compileTyped, not_fail a hnf, Bool.false_eq_true, if_false] at h
    obtain ⟨⟨d1, s1⟩, h1, h2⟩ := Outcome.bind_eq_ok.1 h
    cases h2
    refine (compileTyped_good hm ho ho' a _ st _ _ hfa h1).mono fun M' hM' M next d hl hc => ?_
    simp only [TFormat.erase] at hl hc
    cases hc with | variant hc =>
    exact .variant (hM' M _ _ (hl.imp id fun h => by cases h with | variant h => exact h) hc)
  | .maybe _ e a =>
    obtain ⟨hnf, hfa⟩ := hf
    simp only [compileTyped] at h
    obtain ⟨⟨d1, s1⟩, h1, h2⟩ := Outcome.bind_eq_ok.1 h
    cases h2
    refine (compileTyped_good hm ho ho' a _ st _ _ hfa h1).mono fun M' hM' M next d hl hc => ?_
    simp only [TFormat.erase] at hl hc
    cases hc with | maybe hc =>
    exact .maybe (hM' M _ _ (.inr hnf) hc)
  | .hint _ a =>
    have hfa : a.Fit m := hf
    simp only [compileTyped] at h
    refine (compileTyped_good hm ho ho' a _ st _ _ hfa h).mono fun M' hM' M next d hl hc => ?_
    simp only [TFormat.erase] at hl hc
    cases hc with | hint hc =>
    exact hM' M _ _ (hl.imp id fun h => by cases h with | hint h => exact h) hc
  | .peekNot _ a =>
    have hfa : a.Fit m := hf
    simp only [compileTyped] at h
    obtain ⟨b, h0, h⟩ := Outcome.bind_eq_ok.1 h
    split at h
    · obtain ⟨⟨d1, s1⟩, h1, h2⟩ := Outcome.bind_eq_ok.1 h
      cases h2
      refine (compileTyped_good hm ho ho' a _ st _ _ hfa h1).mono fun M' hM' M next d hl hc => ?_
      simp only [TFormat.erase] at hl hc
      cases hc with | peekNot _ hc =>
      exact .peekNot (hM' M _ _ (.inl .empty) hc)
    · cases h
  | .union _ fs =>
    have hfs : TFormat.FitList m fs := hf
    simp only [compileTyped] at h
    obtain ⟨⟨ds, s1⟩, h1, h⟩ := Outcome.bind_eq_ok.1 h
    obtain ⟨t, h2, h⟩ := Outcome.bind_eq_ok.1 h
    cases h
    refine (compileTypedAll_good hm ho ho' fs _ st _ _ hfs h1).mono fun M' hM' M next d hl hc => ?_
    simp only [TFormat.erase] at hl hc
    cases hc with | union hc ht =>
    have hl : NRel m next tnext := hl.elim id fun h => nomatch h
    exact .branch (tree_agree hm ho ho' (fit_bytesList fs hfs) hl ht h2) (hM' M _ _ (.inl hl) hc)
  | .unionNondet _ fs =>
    have hfs : TFormat.FitList m fs := hf
    simp only [compileTyped] at h
    obtain ⟨⟨ds, s1⟩, h1, h⟩ := Outcome.bind_eq_ok.1 h
    cases h
    refine (compileTypedAll_good hm ho ho' fs _ st _ _ hfs h1).mono fun M' hM' M next d hl hc => ?_
    simp only [TFormat.erase] at hl hc
    cases hc with | unionNondet hc =>
    exact .parallel (hM' M _ _ (hl.imp id fun h => by cases h with | unionNondet h => exact h) hc)
  | .tuple _ fs =>
    have hfs : TFormat.FitList m fs := hf
    simp only [compileTyped] at h
    obtain ⟨⟨ds, s1⟩, h1, h⟩ := Outcome.bind_eq_ok.1 h
    cases h
    refine (compileTypedFields_good hm ho ho' fs _ st _ _ hfs h1).mono fun M' hM' M next d hl hc => ?_
    simp only [TFormat.erase] at hl hc
    cases hc with | tuple hc =>
    exact .tuple (hM' M _ _ (hl.imp id fun h => by cases h with | tuple h => exact h) hc)
  | .sequence _ fs =>
    have hfs : TFormat.FitList m fs := hf
    simp only [compileTyped] at h
    obtain ⟨⟨ds, s1⟩, h1, h⟩ := Outcome.bind_eq_ok.1 h
    cases h
    refine (compileTypedFields_good hm ho ho' fs _ st _ _ hfs h1).mono fun M' hM' M next d hl hc => ?_
    simp only [TFormat.erase] at hl hc
    cases hc with | sequence hc =>
    exact .sequence (hM' M _ _ (hl.imp id fun h => by cases h with | sequence h => exact h) hc)
  | .match_ _ e fs =>
    have hfs : TFormat.FitBranches m fs := hf
    simp only [compileTyped] at h
    obtain ⟨⟨ds, s1⟩, h1, h⟩ := Outcome.bind_eq_ok.1 h
    cases h
    refine (compileTypedBranches_good hm ho ho' fs _ st _ _ hfs h1).mono fun M' hM' M next d hl hc => ?_
    simp only [TFormat.erase] at hl hc
    cases hc with | match_ hc =>
    exact .match_ (hM' M _ _ (hl.imp id fun h => by cases h with | match_ h => exact h) hc)
  | .repeat_ _ a =>
    have hfa : a.Fit m := hf
    simp only [compileTyped] at h
    obtain ⟨nl, h0, h⟩ := Outcome.bind_eq_ok.1 h
    cases nl with
    | true => cases h
    | false =>
      obtain ⟨⟨d1, s1⟩, h1, h⟩ := Outcome.bind_eq_ok.1 h
      obtain ⟨t, h2, h⟩ := Outcome.bind_eq_ok.1 h
      cases h
      refine (compileTyped_good hm ho ho' a _ st _ _ hfa h1).mono fun M' hM' M next d hl hc => ?_
      simp only [TFormat.erase] at hl hc
      cases hc with | repeat_ _ hc ht =>
      have hl : NRel m next tnext := hl.elim id fun h => nomatch h
      have hb := fit_bytes a hfa
      have he : Format.EachOf Format.BytesHere [.tuple [a.erase, .repeat_ a.erase], Format.EMPTY] :=
        ⟨⟨trivial, hb, ⟨trivial, hb⟩, trivial⟩, ⟨trivial, trivial⟩, trivial⟩
      exact .while_ (tree_agree hm ho ho' he hl ht h2)
        (hM' M _ _ (.inl (.repeat_ (.typed hfa) hl)) hc)
  | .repeat1 _ a =>
    have hfa : a.Fit m := hf
    simp only [compileTyped] at h
    obtain ⟨nl, h0, h⟩ := Outcome.bind_eq_ok.1 h
    cases nl with
    | true => cases h
    | false =>
      obtain ⟨⟨d1, s1⟩, h1, h⟩ := Outcome.bind_eq_ok.1 h
      obtain ⟨t, h2, h⟩ := Outcome.bind_eq_ok.1 h
      cases h
      refine (compileTyped_good hm ho ho' a _ st _ _ hfa h1).mono fun M' hM' M next d hl hc => ?_
      simp only [TFormat.erase] at hl hc
      cases hc with | repeat1 _ hc ht =>
      have hl : NRel m next tnext := hl.elim id fun h => nomatch h
      have hb := fit_bytes a hfa
      have he : Format.EachOf Format.BytesHere [Format.EMPTY, .tuple [a.erase, .repeat_ a.erase]] :=
        ⟨⟨trivial, trivial⟩, ⟨trivial, hb, ⟨trivial, hb⟩, trivial⟩, trivial⟩
      exact .until_ (tree_agree hm ho ho' he hl ht h2)
        (hM' M _ _ (.inl (.repeat_ (.typed hfa) hl)) hc)
  | .repeatBetween _ x y a =>
    obtain ⟨hx, hy, hfa⟩ := hf
    simp only [compileTyped] at h
    obtain ⟨min, hmin, h⟩ := Outcome.bind_eq_ok.1 h
    obtain ⟨max, hmax, h⟩ := Outcome.bind_eq_ok.1 h
    obtain ⟨⟨d1, s1⟩, h1, h⟩ := Outcome.bind_eq_ok.1 h
    obtain ⟨t, h2, h⟩ := Outcome.bind_eq_ok.1 h
    cases h
    have hmin := Compiler.unwrap_eq_ok.1 (Outcome.ofPanicky_eq_ok.1 hmin)
    have hmax := Compiler.unwrap_eq_ok.1 (Outcome.ofPanicky_eq_ok.1 hmax)
    refine (compileTyped_good hm ho ho' a _ st _ _ hfa h1).mono fun M' hM' M next d hl hc => ?_
    simp only [TFormat.erase] at hl hc
    cases hc with | @repeatBetween _ _ _ min2 max2 _ _ _ h3 h4 hc ht =>
    obtain ⟨b, hb1, hb2⟩ := h3
    obtain ⟨c, hc1, hc2⟩ := h4
    obtain ⟨b', hb3, hb4, _⟩ := hx
    obtain ⟨c', hc3, hc4, _⟩ := hy
    rw [hb1] at hb3; cases hb3
    rw [hc1] at hc3; cases hc3
    rw [hb4, hmin] at hb2; cases hb2
    rw [hc4, hmax] at hc2; cases hc2
    have hl : NRel m next tnext := hl.elim id fun h => nomatch h
    have hb := fit_bytes a hfa
    have he : Format.EachOf Format.BytesHere (Compiler.countFormats a.erase max) :=
      eachOf_map (P := Format.BytesHere) (fun count => .repeatCount (.lit .b32 (Fin.ofNat _ count)) a.erase)
        (fun _ => ⟨trivial, hb⟩) _
    exact .repeatBetween (tree_agree hm ho ho' he hl ht h2)
      (hM' M _ _ (.inl (.repeatBetween (.typed hfa) hl)) hc)
  | .letFormat _ a x b =>
    obtain ⟨hfa, hfb⟩ := hf
    simp only [compileTyped] at h
    obtain ⟨⟨d1, s1⟩, h1, h⟩ := Outcome.bind_eq_ok.1 h
    obtain ⟨⟨d2, s2⟩, h2, h⟩ := Outcome.bind_eq_ok.1 h
    cases h
    refine (compileTyped_good hm ho ho' a _ st _ _ hfa h1).seq (compileTyped_good hm ho ho' b _ s1 _ _ hfb h2)
      fun M' hM1 hM2 M next d hl hc => ?_
    simp only [TFormat.erase] at hl hc
    cases hc with | letFormat hc1 hc2 =>
    exact .letFormat (hM1 M _ _ (hl.imp (.cat (.typed hfb)) fun h => by cases h with | letFormat h _ => exact h) hc1)
      (hM2 M _ _ (hl.imp id fun h => by cases h with | letFormat _ h => exact h) hc2)
  | .monadSeq _ a b =>
    obtain ⟨hfa, hfb⟩ := hf
    simp only [compileTyped] at h
    obtain ⟨⟨d1, s1⟩, h1, h⟩ := Outcome.bind_eq_ok.1 h
    obtain ⟨⟨d2, s2⟩, h2, h⟩ := Outcome.bind_eq_ok.1 h
    cases h
    refine (compileTyped_good hm ho ho' a _ st _ _ hfa h1).seq (compileTyped_good hm ho ho' b _ s1 _ _ hfb h2)
      fun M' hM1 hM2 M next d hl hc => ?_
    simp only [TFormat.erase] at hl hc
    cases hc with | monadSeq hc1 hc2 =>
    exact .monadSeq (hM1 M _ _ (hl.imp (.cat (.typed hfb)) fun h => by cases h with | monadSeq h _ => exact h) hc1)
      (hM2 M _ _ (hl.imp id fun h => by cases h with | monadSeq _ h => exact h) hc2)

theorem compileTypedAll_good [DecidableEq (TNext τ)] {m : Module} {o : TOpts τ} (hm : m.BytesOk)
    (ho : o.base.ord.Valid) (ho' : o.ord.Valid) (fs : List (TFormat τ)) (tnext : TNext τ) (st : TCompSt τ)
    (ds' : List Decoder) (st' : TCompSt τ) (hf : TFormat.FitList m fs)
    (h : compileTypedAll m o fs tnext st = .ok (ds', st')) :
    Good m st st' fun M' => AgreeAll m o.base M' fs tnext ds' := by
  match fs with
  | [] =>
    simp only [compileTypedAll] at h; cases h
    exact .pure fun M' M next ds hl hc => by cases hc; exact .nil
  | f :: fs =>
    simp only [compileTypedAll] at h
    obtain ⟨⟨d1, s1⟩, h1, h⟩ := Outcome.bind_eq_ok.1 h
    obtain ⟨⟨d2, s2⟩, h2, h⟩ := Outcome.bind_eq_ok.1 h
    cases h
    refine (compileTyped_good hm ho ho' f _ st _ _ hf.1 h1).seq (compileTypedAll_good hm ho ho' fs _ s1 _ _ hf.2 h2)
      fun M' hM1 hM2 M next ds hl hc => ?_
    simp only [TFormat.eraseList] at hl hc
    cases hc with | acons hc1 hc2 =>
    exact .cons (hM1 M _ _ (hl.imp id fun h => h _ List.mem_cons_self) hc1)
      (hM2 M _ _ (hl.imp id fun h f hf => h f (List.mem_cons_of_mem _ hf)) hc2)

theorem compileTypedFields_good [DecidableEq (TNext τ)] {m : Module} {o : TOpts τ} (hm : m.BytesOk)
    (ho : o.base.ord.Valid) (ho' : o.ord.Valid) (fs : List (TFormat τ)) (tnext : TNext τ) (st : TCompSt τ)
    (ds' : List Decoder) (st' : TCompSt τ) (hf : TFormat.FitList m fs)
    (h : compileTypedFields m o fs tnext st = .ok (ds', st')) :
    Good m st st' fun M' => AgreeFields m o.base M' fs tnext ds' := by
  match fs with
  | [] =>
    simp only [compileTypedFields] at h; cases h
    exact .pure fun M' M next ds hl hc => by cases hc; exact .nil
  | f :: fs =>
    simp only [compileTypedFields] at h
    obtain ⟨⟨d1, s1⟩, h1, h⟩ := Outcome.bind_eq_ok.1 h
    obtain ⟨⟨d2, s2⟩, h2, h⟩ := Outcome.bind_eq_ok.1 h
    cases h
    refine (compileTyped_good hm ho ho' f _ st _ _ hf.1 h1).seq (compileTypedFields_good hm ho ho' fs _ s1 _ _ hf.2 h2)
      fun M' hM1 hM2 M next ds hl hc => ?_
    simp only [TFormat.eraseList] at hl hc
    cases hc with | fcons hc1 hc2 =>
    exact .cons (hM1 M _ _ (hl.imp (.sequence (.typed hf.2)) fun h => h _ List.mem_cons_self) hc1)
      (hM2 M _ _ (hl.imp id fun h f hf => h f (List.mem_cons_of_mem _ hf)) hc2)

theorem compileTypedBranches_good [DecidableEq (TNext τ)] {m : Module} {o : TOpts τ} (hm : m.BytesOk)
    (ho : o.base.ord.Valid) (ho' : o.ord.Valid) (fs : List (Pattern × TFormat τ)) (tnext : TNext τ) (st : TCompSt τ)
    (ds' : List (Pattern × Decoder)) (st' : TCompSt τ) (hf : TFormat.FitBranches m fs)
    (h : compileTypedBranches m o fs tnext st = .ok (ds', st')) :
    Good m st st' fun M' => AgreeBranches m o.base M' fs tnext ds' := by
  match fs with
  | [] =>
    simp only [compileTypedBranches] at h; cases h
    exact .pure fun M' M next ds hl hc => by cases hc; exact .nil
  | (p, f) :: fs =>
    simp only [compileTypedBranches] at h
    obtain ⟨⟨d1, s1⟩, h1, h⟩ := Outcome.bind_eq_ok.1 h
    obtain ⟨⟨d2, s2⟩, h2, h⟩ := Outcome.bind_eq_ok.1 h
    cases h
    refine (compileTyped_good hm ho ho' f _ st _ _ hf.1 h1).seq (compileTypedBranches_good hm ho ho' fs _ s1 _ _ hf.2 h2)
      fun M' hM1 hM2 M next ds hl hc => ?_
    simp only [TFormat.eraseBranches] at hl hc
    cases hc with | bcons hc1 hc2 =>
    exact .cons (hM1 M _ _ (hl.imp id fun h => h (p, f.erase) List.mem_cons_self) hc1)
      (hM2 M _ _ (hl.imp id fun h f hf => h f (List.mem_cons_of_mem _ hf)) hc2)
end

/-- State of the compiler between two rounds of its main loop: `tgt` tells what every slot is for. -/
structure Inv (m : Module) (o : TOpts τ) (st : TCompSt τ) (tgt : List (TFormat τ × TNext τ)) : Prop where
  len : st.decoders.length = tgt.length
  queue : ∀ e ∈ st.queue, tgt[e.2.2]? = some (e.1, e.2.1)
  nodup : (st.queue.map (·.2.2)).Nodup
  map : ∀ x ∈ st.map, ∃ it, Callee m x.1.1 it ∧ tgt[x.2]? = some (it, x.1.2)
  done : ∀ k t, tgt[k]? = some t → k ∉ st.queue.map (·.2.2) →
    ∃ d, st.decoders[k]? = some d ∧ ∀ M, (∀ x ∈ st.map, x ∈ M) → Agree m o.base M t.1 t.2 d
  fit : ∀ t ∈ tgt, t.1.Fit m

theorem entries_ix (a : List (TFormat τ × TNext τ)) (n k : Nat) :
    k ∈ (entries n a).map (·.2.2) ↔ n ≤ k ∧ k < n + a.length := by
  simp only [List.mem_map, mem_entries]
  constructor
  · rintro ⟨e, ⟨i, h1, h2⟩, rfl⟩
    have := (List.getElem?_eq_some_iff.1 h1).1
    omega
  · rintro ⟨h1, h2⟩
    have hk : k - n < a.length := by omega
    refine ⟨(a[k - n].1, a[k - n].2, k), ⟨k - n, ?_, by simp only []; omega⟩, rfl⟩
    simp [List.getElem?_eq_getElem hk]

theorem entries_nodup (a : List (TFormat τ × TNext τ)) (n : Nat) : ((entries n a).map (·.2.2)).Nodup := by
  induction a generalizing n with
  | nil => simp [entries]
  | cons p a ih =>
    obtain ⟨f, x⟩ := p
    simp only [entries, List.map_append, List.map_cons, List.map_nil]
    rw [List.nodup_append]
    refine ⟨ih _, by simp, ?_⟩
    intro b hb c hc
    rw [entries_ix] at hb
    simp at hc
    omega

theorem drain_inv [DecidableEq (TNext τ)] {m : Module} {o : TOpts τ} (hm : m.BytesOk)
    (ho : o.base.ord.Valid) (ho' : o.ord.Valid) (fuel : Nat) (st st' : TCompSt τ)
    (tgt : List (TFormat τ × TNext τ)) (hi : Inv m o st tgt) (h : drain m o fuel st = .ok st') :
    ∃ ext, Inv m o st' (tgt ++ ext) ∧ st'.queue = [] := by
  induction fuel generalizing st tgt with
  | zero => simp [drain] at h
  | succ n ih =>
    simp only [drain] at h
    cases hq : st.queue with
    | nil => rw [hq] at h; simp only [] at h; cases h; exact ⟨[], by simpa using hi, hq⟩
    | cons e rest =>
      obtain ⟨f, next, k⟩ := e
      rw [hq] at h
      simp only [] at h
      obtain ⟨⟨d, s1⟩, h1, h⟩ := Outcome.bind_eq_ok.1 h
      have hfit : f.Fit m := hi.fit (f, next) (List.mem_of_getElem? (hi.queue (f, next, k) (by rw [hq]; simp)))
      obtain ⟨⟨ext, hext⟩, hc⟩ := compileTyped_good hm ho ho' f next _ _ _ hfit h1
      have hk := hi.queue (f, next, k) (by rw [hq]; simp)
      simp only [] at hk
      have hklt : k < tgt.length := (List.getElem?_eq_some_iff.1 hk).1
      have hnd : k ∉ rest.map (·.2.2) ∧ (rest.map (·.2.2)).Nodup := by
        have := hi.nodup; rw [hq] at this; simpa using this
      have hrest : ∀ j ∈ rest.map (·.2.2), j < tgt.length := by
        intro j hj
        obtain ⟨e, he, rfl⟩ := List.mem_map.1 hj
        exact (List.getElem?_eq_some_iff.1 (hi.queue e (by rw [hq]; simp [he]))).1
      have hlen := hi.len
      have hinv : Inv m o { s1 with decoders := s1.decoders.set k d } (tgt ++ ext) := by
        constructor
        · simp [hext.decoders, hlen]
        · intro e he
          simp only [] at he
          rw [hext.queue] at he
          rcases List.mem_append.1 he with he | he
          · obtain ⟨i, h2, h3⟩ := mem_entries.1 he
            simp only [] at h3
            rw [List.getElem?_append_right (by omega)]
            rw [show e.2.2 - tgt.length = i by omega]; exact h2
          · have := hi.queue e (by rw [hq]; simp only [] at he; exact List.mem_cons_of_mem _ he)
            rw [List.getElem?_append_left (List.getElem?_eq_some_iff.1 this).1, this]
        · simp only []
          rw [hext.queue, List.map_append, List.nodup_append]
          refine ⟨entries_nodup _ _, hnd.2, ?_⟩
          intro a ha b hb
          rw [entries_ix] at ha
          have := hrest b hb
          simp only [] at ha
          omega
        · intro x hx
          rcases hext.targets x hx with h2 | ⟨it, i, h2, h3, h4⟩
          · obtain ⟨it, h3, h4⟩ := hi.map x h2
            exact ⟨it, h3, by rw [List.getElem?_append_left (List.getElem?_eq_some_iff.1 h4).1, h4]⟩
          · refine ⟨it, h2, ?_⟩
            simp only [] at h3
            rw [List.getElem?_append_right (by omega), show x.2 - tgt.length = i by omega]; exact h4
        · intro j t ht hj
          simp only [] at hj
          rw [hext.queue, List.map_append, List.mem_append, entries_ix] at hj
          simp only [not_or] at hj
          have hjlt : j < tgt.length := by
            have := (List.getElem?_eq_some_iff.1 ht).1
            rw [List.length_append] at this
            omega
          rw [List.getElem?_append_left hjlt] at ht
          by_cases hjk : j = k
          · subst hjk
            rw [hk] at ht; cases ht
            refine ⟨d, ?_, fun M hM => hc M hM⟩
            rw [List.getElem?_set_self (by rw [hext.decoders]; simp; omega)]
          · obtain ⟨d', h2, h3⟩ := hi.done j t ht (by
              rw [hq]; simp only [List.map_cons, List.mem_cons, not_or]; exact ⟨hjk, hj.2⟩)
            refine ⟨d', ?_, fun M hM => h3 M fun x hx => hM x (hext.map x hx)⟩
            rw [List.getElem?_set_ne (fun h => hjk h.symm), hext.decoders,
              List.getElem?_append_left (List.getElem?_eq_some_iff.1 h2).1]
            exact h2
        · intro t ht
          exact (List.mem_append.1 ht).elim (hi.fit t) (hext.fit t)
      obtain ⟨ext', h3, h4⟩ := ih _ _ hinv h
      exact ⟨ext ++ ext', by rw [← List.append_assoc]; exact h3, h4⟩


end TCompiler
end Doodle
