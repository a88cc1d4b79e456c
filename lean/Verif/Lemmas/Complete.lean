import Verif.Spec.Regular
import Verif.Lemmas.Words
import Verif.Lemmas.Sound
import Verif.Lemmas.FuelMono
import Verif.Props.Lookahead

/-! Completeness of the compiled decoder for regular formats. -/

namespace Doodle

open Grammar Tree

abbrev Lang := List UInt8 → Prop

/-! ## What derivations cover -/

/-- the input between `c` and `c'` is in the language -/
def Covered (c c' : ReadCtxt) (L : Lang) : Prop :=
  ∃ a rest, c.input.drop c.offset = a ++ rest ∧ c' = ⟨c.input, c.offset + a.length⟩ ∧ L a

theorem Covered.nil {c : ReadCtxt} {L : Lang} (h : L []) : Covered c c L := ⟨[], _, rfl, rfl, h⟩

theorem Covered.imp {c c' : ReadCtxt} {L L' : Lang} (h : Covered c c' L) (hl : ∀ u, L u → L' u) : Covered c c' L' := by
  obtain ⟨a, r, h1, h2, h3⟩ := h
  exact ⟨a, r, h1, h2, hl a h3⟩

theorem Covered.seq {c c' c'' : ReadCtxt} {A B : Lang} (h : Covered c c' A) (h' : Covered c' c'' B) :
    Covered c c'' (Cat A B) := by
  obtain ⟨a, r, h1, rfl, h3⟩ := h
  obtain ⟨b, r', h4, rfl, h6⟩ := h'
  refine ⟨a ++ b, r', ?_, ?_, a, b, rfl, h3, h6⟩
  · simp only [] at h4
    rw [← List.drop_drop, h1, List.drop_left] at h4
    rw [h1, h4, List.append_assoc]
  · simp [Nat.add_assoc]

theorem EachOf.get {P : Format → Prop} {fs : List Format} (h : Format.EachOf P fs) : ∀ f ∈ fs, f.Each P := by
  induction fs with
  | nil => intro f hf; cases hf
  | cons g fs ih =>
    simp only [Format.EachOf] at h
    intro f hf
    rcases List.mem_cons.1 hf with rfl | hf
    · exact h.1
    · exact ih h.2 f hf

theorem EachBranchOf.get {P : Format → Prop} {fs : List (Pattern × Format)} (h : Format.EachBranchOf P fs) :
    ∀ p ∈ fs, p.2.Each P := by
  induction fs with
  | nil => intro f hf; cases hf
  | cons g fs ih =>
    obtain ⟨q, g⟩ := g
    simp only [Format.EachBranchOf] at h
    intro f hf
    rcases List.mem_cons.1 hf with rfl | hf
    · exact h.1
    · exact ih h.2 f hf

/-- nothing is ever known to be rejected -/
abbrev never : Format → Scope Format → ReadCtxt → Prop := fun _ _ _ => False

section
variable {m : Module} {E : Nat → Bool} {o : BuildOpts} {tr : Bool}

mutual
theorem Grammar.Parses.covered (hm : m.Plain E) (hr : m.Regular E o tr) :
    ∀ {f s c v c' k}, Parses m never f s c v c' k → ∀ {j l}, f.Plain m E j l → f.Regular m E o tr →
      Covered c c' (Word m f)
  | _, _, _, _, _, _, .itemVar hi _ _ h, _, _, _, _ =>
    (h.covered hm hr (hm _ _ hi) (hr _ _ hi)).imp fun _ => .itemVar hi
  | _, _, _, _, _, _, .endOfInput _, _, _, _, _ => .nil .endOfInput
  | _, _, c, _, _, _, .byte (b := b) h1 h2, _, _, _, _ => by
    obtain ⟨hlt, hb⟩ := List.getElem?_eq_some_iff.1 h1
    exact ⟨[b], _, by rw [List.drop_eq_getElem_cons hlt, hb]; rfl, rfl, .byte h2⟩
  | _, _, _, _, _, _, .variant h, _, _, hp, hg => by
    simp only [Format.Regular, Format.Plain, Format.Each] at hp hg
    exact (h.covered hm hr hp hg.2).imp fun _ => .variant
  | _, _, _, _, _, _, .union hi h, _, _, hp, hg => by
    simp only [Format.Regular, Format.Plain, Format.Each] at hp hg
    exact (h.covered hm hr (hp.2.get _ (List.mem_of_getElem? hi)) (EachOf.get hg.2 _ (List.mem_of_getElem? hi))).imp
      fun _ => .union (List.mem_of_getElem? hi)
  | _, _, _, _, _, _, .unionNondet hi _ h, _, _, hp, hg => by
    simp only [Format.Regular, Format.Plain, Format.Each] at hp hg
    exact (h.covered hm hr (hp.2.get _ (List.mem_of_getElem? hi)) (EachOf.get hg.2 _ (List.mem_of_getElem? hi))).imp
      fun _ => .unionNondet (List.mem_of_getElem? hi)
  | _, _, _, _, _, _, .tuple h, _, _, hp, hg => by
    simp only [Format.Regular, Format.Plain, Format.Each] at hp hg
    exact (h.covered hm hr hp hg.2).imp fun _ => .tuple
  | _, _, _, _, _, _, .sequence h, _, _, hp, hg => by
    simp only [Format.Regular, Format.Plain, Format.Each] at hp hg
    exact (h.covered hm hr hp hg.2).imp fun _ => .sequence
  | _, _, _, _, _, _, .repeat_ h, _, _, hp, hg => by
    simp only [Format.Regular, Format.Plain, Format.Each] at hp hg
    exact (h.covered hm hr hp hg.2).imp fun _ => .repeat_
  | _, _, _, _, _, _, .repeat1 (f := f) (vs := vs) h hne, _, _, hp, hg => by
    simp only [Format.Regular, Format.Plain, Format.Each] at hp hg
    obtain ⟨n, hn⟩ : ∃ n, vs.length = n + 1 := ⟨vs.length - 1, by have := List.length_pos_iff.2 hne; omega⟩
    refine (h.covered hm hr hp hg.2).imp fun _ hw => ?_
    rw [hn] at hw
    exact .repeat1 hw
  | _, _, _, _, _, _, .repeatCount hd h hl, _, _, hp, hg => by
    simp only [Format.Regular, Format.Plain, Format.Each, Format.RegularHere] at hp hg
    obtain ⟨b, hb1, hb2⟩ := hg.1.2 _ _ hd
    refine (h.covered hm hr hp.2 hg.2).imp fun _ hw => ?_
    rw [hl] at hw
    exact .repeatCount hb1 hb2 hw
  | _, _, _, _, _, _, .repeatBetween _ _ _ _ _, _, _, _, hg => by
    simp only [Format.Regular, Format.Each, Format.RegularHere] at hg
    exact hg.1.elim
  | _, _, _, _, _, _, .maybe_some _ h, _, _, hp, hg => by
    simp only [Format.Regular, Format.Plain, Format.Each] at hp hg
    exact (h.covered hm hr hp hg.2).imp fun _ => .maybe_some
  | _, _, _, _, _, _, .maybe_none _, _, _, _, _ => .nil .maybe_none
  | _, _, _, _, _, _, .map h _, _, _, hp, hg => by
    simp only [Format.Regular, Format.Plain, Format.Each] at hp hg
    exact (h.covered hm hr hp hg.2).imp fun _ => .map
  | _, _, _, _, _, _, .where_ h _, _, _, hp, hg => by
    simp only [Format.Regular, Format.Plain, Format.Each] at hp hg
    exact (h.covered hm hr hp hg.2).imp fun _ => .where_
  | _, _, _, _, _, _, .where_lenient h _, _, _, hp, hg => by
    simp only [Format.Regular, Format.Plain, Format.Each] at hp hg
    exact (h.covered hm hr hp hg.2).imp fun _ => .where_
  | _, _, _, _, _, _, .compute _, _, _, _, _ => .nil .compute
  | _, _, _, _, _, _, .let_ _ h, _, _, hp, hg => by
    simp only [Format.Regular, Format.Plain, Format.Each] at hp hg
    exact (h.covered hm hr hp hg.2).imp fun _ => .let_
  | _, _, _, _, _, _, .match_ _ hi _ _ h, _, _, hp, hg => by
    simp only [Format.Regular, Format.Plain, Format.Each] at hp hg
    exact (h.covered hm hr (hp.2.get _ (List.mem_of_getElem? hi)) (EachBranchOf.get hg.2 _ (List.mem_of_getElem? hi))).imp
      fun _ => .match_ (List.mem_of_getElem? hi)
  | _, _, _, _, _, _, .pos, _, _, _, _ => .nil .pos
  | _, _, _, _, _, _, .decodeBytes _ _ _ _, _, _, _, _ => .nil .decodeBytes
  | _, _, _, _, _, _, .decodeBytes_trailing _ _ _ _, _, _, _, _ => .nil .decodeBytes
  | _, _, _, _, _, _, .letFormat h1 h2, _, _, hp, hg => by
    simp only [Format.Regular, Format.Plain, Format.Each] at hp hg
    refine ((h1.covered hm hr hp.1 hg.2.1).seq (h2.covered hm hr hp.2 hg.2.2)).imp fun _ hw => ?_
    obtain ⟨a, b, rfl, ha, hb⟩ := hw
    exact .letFormat ha hb
  | _, _, _, _, _, _, .monadSeq h1 h2, _, _, hp, hg => by
    simp only [Format.Regular, Format.Plain, Format.Each] at hp hg
    refine ((h1.covered hm hr hp.1 hg.2.1).seq (h2.covered hm hr hp.2 hg.2.2)).imp fun _ hw => ?_
    obtain ⟨a, b, rfl, ha, hb⟩ := hw
    exact .monadSeq ha hb
  | _, _, _, _, _, _, .hint h, _, _, hp, hg => by
    simp only [Format.Regular, Format.Plain, Format.Each] at hp hg
    exact (h.covered hm hr hp hg.2).imp fun _ => .hint
  | _, _, _, _, _, _, .liftedNone, _, _, _, _ => .nil .liftedNone
  | _, _, _, _, _, _, .liftedSome h, _, _, hp, hg => by
    simp only [Format.Regular, Format.Plain, Format.Each] at hp hg
    exact (h.covered hm hr hp hg.2).imp fun _ => .liftedSome
  | _, _, _, _, _, _, .letView h, _, _, hp, hg => by
    simp only [Format.Regular, Format.Plain, Format.Each] at hp hg
    exact (h.covered hm hr hp hg.2).imp fun _ => .letView
  | _, _, _, _, _, _, .captureBytes _ _ _, _, _, _, _ => .nil .captureBytes
  | _, _, _, _, _, _, .readArray _ _ _ _, _, _, _, _ => .nil .readArray
  | _, _, _, _, _, _, .reifyView _, _, _, _, _ => .nil .reifyView
  | _, _, _, _, _, _, .parseFromView _ _, _, _, _, _ => .nil .parseFromView
  | _, _, _, _, _, _, .enforce h, _, _, hp, hg => by
    simp only [Format.Regular, Format.Plain, Format.Each] at hp hg
    exact (h.covered hm hr hp hg.2).imp fun _ => .enforce
  | _, _, _, _, _, _, .permit h, _, _, hp, hg => by
    simp only [Format.Regular, Format.Plain, Format.Each] at hp hg
    exact (h.covered hm hr hp hg.2).imp fun _ => .permit
  | _, _, _, _, _, _, .permit_fallback h _, _, _, _, _ => h.elim
  | _, _, _, _, _, _, .align .., _, _, hp, _ => by simp only [Format.Plain] at hp
  | _, _, _, _, _, _, .repeatUntilLast .., _, _, hp, _ => by simp only [Format.Plain] at hp
  | _, _, _, _, _, _, .repeatUntilSeq .., _, _, hp, _ => by simp only [Format.Plain] at hp
  | _, _, _, _, _, _, .accumUntil .., _, _, hp, _ => by simp only [Format.Plain] at hp
  | _, _, _, _, _, _, .forEach .., _, _, hp, _ => by simp only [Format.Plain] at hp
  | _, _, _, _, _, _, .peek .., _, _, hp, _ => by simp only [Format.Plain] at hp
  | _, _, _, _, _, _, .peekNot h, _, _, _, _ => h.elim
  | _, _, _, _, _, _, .slice .., _, _, hp, _ => by simp only [Format.Plain] at hp
  | _, _, _, _, _, _, .bits .., _, _, hp, _ => by simp only [Format.Plain] at hp
  | _, _, _, _, _, _, .withRelativeOffset .., _, _, hp, _ => by simp only [Format.Plain] at hp
  | _, _, _, _, _, _, .dynamic .., _, _, hp, _ => by simp only [Format.Plain] at hp
  | _, _, _, _, _, _, .apply .., _, _, hp, _ => by simp only [Format.Plain] at hp
  | _, _, _, _, _, _, .skipRemainder, _, _, hp, _ => by simp only [Format.Plain] at hp
  | _, _, _, _, _, _, .phantom, _, _, hp, _ => by simp only [Format.Plain] at hp

theorem Grammar.ParsesFields.covered (hm : m.Plain E) (hr : m.Regular E o tr) :
    ∀ {fs s c vs c' k}, ParsesFields m never fs s c vs c' k → ∀ {j l}, Format.FieldsPlain m E j l fs →
      Format.EachOf (Format.RegularHere m E o tr) fs → Covered c c' (Words m fs)
  | _, _, _, _, _, _, .fnil, _, _, _, _ => .nil .nil
  | _, _, _, _, _, _, .fcons h1 h2, _, _, hp, hg => by
    simp only [Format.FieldsPlain, Format.EachOf] at hp hg
    refine ((h1.covered hm hr hp.1 hg.1).seq (h2.covered hm hr hp.2 hg.2)).imp fun _ hw => ?_
    obtain ⟨a, b, rfl, ha, hb⟩ := hw
    exact .cons ha hb

theorem Grammar.ParsesMany.covered (hm : m.Plain E) (hr : m.Regular E o tr) :
    ∀ {f s c vs c' k}, ParsesMany m never f s c vs c' k → ∀ {j l}, f.Plain m E j l → f.Regular m E o tr →
      Covered c c' (Power m f vs.length)
  | _, _, _, _, _, _, .mnil, _, _, _, _ => .nil .zero
  | _, _, _, _, _, _, .mcons h1 h2, _, _, hp, hg => by
    refine ((h1.covered hm hr hp hg).seq (h2.covered hm hr hp hg)).imp fun _ hw => ?_
    obtain ⟨a, b, rfl, ha, hb⟩ := hw
    exact .succ ha hb
end

/-! ## Where a derivation is the one the decoder finds -/

/-- one is a beginning of the other -/
def Comp (x y : List UInt8) : Prop := x <+: y ∨ y <+: x

/-- The input `rem` begins with the word `u` of `L`, followed by `w` and `z`, where what may follow is `N` and
then `O`; looking further into the input, no other word of `L` and `N` is possible, except, where `O` is
trivial, shorter ones. -/
structure FitsAt (L F N O : Lang) (rem u w z rest : List UInt8) : Prop where
  rem : rem = u ++ (w ++ (z ++ rest))
  word : L u
  near : N w
  far : O z
  follow : ∀ y, F y ↔ Cat N O y
  only : ∀ p, p ≠ [] → p <+: rest → ∀ x, Cat L N x → Comp x (u ++ (w ++ (z ++ p))) →
    x = u ++ w ∨ (x.length < (u ++ w).length ∧ ∀ y, O y → y = [])

def Fits (L F : Lang) (rem u : List UInt8) : Prop := ∃ N O w z rest, FitsAt L F N O rem u w z rest

theorem Fits.mono {L L' F : Lang} {rem u : List UInt8} (h : Fits L F rem u) (hl : ∀ v, L' v → L v) (hu : L' u) :
    Fits L' F rem u := by
  obtain ⟨N, O, w, z, rest, h⟩ := h
  refine ⟨N, O, w, z, rest, h.rem, hu, h.near, h.far, h.follow, fun p hp hr x hx hc => h.only p hp hr x ?_ hc⟩
  obtain ⟨a, b, e, ha, hb⟩ := hx
  exact ⟨a, b, e, hl a ha, hb⟩

theorem Fits.left {L A B F F' : Lang} {rem a b : List UInt8} (h : Fits L F rem (a ++ b)) (hl : ∀ v, Cat A B v → L v)
    (ha : A a) (hb : B b) (hf : ∀ y, F' y ↔ Cat B F y) : Fits A F' rem a := by
  obtain ⟨N, O, w, z, rest, h⟩ := h
  refine ⟨Cat B N, O, b ++ w, z, rest, by rw [h.rem]; simp, ha, ⟨b, w, rfl, hb, h.near⟩, h.far, fun y => ?_, ?_⟩
  · rw [hf, Cat.assoc]
    exact Cat.congr (fun _ => Iff.rfl) h.follow y
  · intro p hp hr x hx hc
    have hx' : Cat L N x := by
      obtain ⟨x1, x2, e, h1, h2⟩ := (Cat.assoc x).2 hx
      exact ⟨x1, x2, e, hl _ h1, h2⟩
    have := h.only p hp hr x hx' (by simpa using hc)
    simpa using this

theorem Fits.right {L A B F : Lang} {rem a b : List UInt8} (h : Fits L F (a ++ rem) (a ++ b))
    (hl : ∀ v, Cat A B v → L v) (ha : A a) (hb : B b) : Fits B F rem b := by
  obtain ⟨N, O, w, z, rest, h⟩ := h
  refine ⟨N, O, w, z, rest, ?_, hb, h.near, h.far, h.follow, ?_⟩
  · have := h.rem
    rw [List.append_assoc] at this
    exact List.append_cancel_left this
  · intro p hp hr x hx hc
    have hx' : Cat L N (a ++ x) := by
      obtain ⟨x1, x2, rfl, h1, h2⟩ := hx
      exact ⟨a ++ x1, x2, by simp, hl _ ⟨a, x1, rfl, ha, h1⟩, h2⟩
    have := h.only p hp hr (a ++ x) hx' (by
      rcases hc with hc | hc
      · exact .inl (by rw [List.append_assoc]; exact (List.prefix_append_right_inj a).2 hc)
      · exact .inr (by rw [List.append_assoc]; exact (List.prefix_append_right_inj a).2 hc))
    rcases this with this | ⟨h1, h2⟩
    · exact .inl (by rw [List.append_assoc] at this; exact List.append_cancel_left this)
    · exact .inr ⟨by simp only [List.length_append] at h1 ⊢; omega, h2⟩

theorem Fits.next {L F : Lang} {rem u : List UInt8} (h : Fits L F rem u) : ∃ w rest, rem = u ++ (w ++ rest) ∧ F w := by
  obtain ⟨N, O, w, z, rest, h⟩ := h
  exact ⟨w ++ z, rest, by rw [h.rem]; simp, (h.follow _).2 ⟨w, z, rfl, h.near, h.far⟩⟩

theorem comp_of {x u y : List UInt8} (hu : u <+: y) (h : Comp x y) : Comp x u := by
  rcases h with h | h
  · rcases Nat.le_total x.length u.length with hl | hl
    · exact .inl (List.prefix_of_prefix_length_le h hu hl)
    · exact .inr (List.prefix_of_prefix_length_le hu h hl)
  · exact .inr (hu.trans h)

/-- after a word of a prefix-free language -/
theorem Fits.free {L F : Lang} (hL : ∀ u p, L u → L (u ++ p) → p = []) {u w rest : List UInt8} (hu : L u) (hw : F w) :
    Fits L F (u ++ (w ++ rest)) u := by
  refine ⟨(· = []), F, [], w, rest, rfl, hu, rfl, hw, fun y => (Cat.nil_left (fun _ => Iff.rfl) y).symm, ?_⟩
  intro p hp hr x hx hc
  obtain ⟨x, _, rfl, hx, rfl⟩ := hx
  left
  rw [List.append_nil] at hc ⊢
  rcases comp_of (List.prefix_append _ _) hc with ⟨q, hq⟩ | ⟨q, hq⟩
  · subst hq
    rw [hL _ _ hx hu]; simp
  · subst hq
    rw [hL _ _ hu hx]

/-- at the end of the input -/
theorem Fits.whole {L F : Lang} {u : List UInt8} (hu : L u) (hF : F []) : Fits L F u u := by
  refine ⟨F, (· = []), [], [], [], by simp, hu, hF, rfl, fun y => ?_, ?_⟩
  · constructor
    · intro h; exact ⟨y, [], by simp, h, rfl⟩
    · rintro ⟨a, _, rfl, h, rfl⟩; simpa using h
  · intro p hp hr
    exact absurd (List.prefix_nil.1 hr) hp

/-- no longer word is possible -/
theorem Fits.longest {L F : Lang} {u rest : List UInt8} (hu : L u) (hF : ∀ y, F y ↔ y = [])
    (h : ∀ p, p ≠ [] → p <+: rest → ¬ Viable L (u ++ p)) : Fits L F (u ++ rest) u := by
  refine ⟨(· = []), (· = []), [], [], rest, rfl, hu, rfl, rfl, fun y => ?_, ?_⟩
  · rw [hF, Cat.nil_left (fun _ => Iff.rfl)]
  · intro p hp hr x hx hc
    obtain ⟨x, _, rfl, hx, rfl⟩ := hx
    simp only [List.nil_append, List.append_nil] at hc ⊢
    have key : ∀ q, q ≠ [] → q <+: rest → ¬ (u ++ q) <+: x := by
      rintro q hq hr ⟨r, rfl⟩
      exact h q hq hr ⟨r, by rw [List.append_assoc] at hx; simpa using hx⟩
    rcases hc with hc | hc
    · rcases Nat.lt_or_ge x.length u.length with hl | hl
      · exact .inr ⟨hl, fun _ h => h⟩
      · left
        obtain ⟨q, rfl⟩ := List.prefix_of_prefix_length_le (List.prefix_append _ _) hc hl
        by_cases hq : q = []
        · simp [hq]
        · refine absurd (List.prefix_refl _) (key q hq ?_)
          exact ((List.prefix_append_right_inj u).1 hc).trans hr
    · exact absurd hc (key p hp hr)

/-- The tree selects the alternative that has the word. -/
theorem select (hm : m.Plain E) {ord : HashOrder} (ho : ord.Valid) {n : Nat} {fs : List Format} {next : Next}
    (hf : ∀ f ∈ fs, f.Plain m E m.items.length next.isDone) (hn : next.Plain m E) {t : MatchTree}
    (ht : MatchTree.build m ord n fs next = .ok (some t)) {c : ReadCtxt} {u : List UInt8} {L : Lang}
    (hL : ∀ v, L v ↔ ∃ f ∈ fs, Word m f v) (h : Fits L (Follow m next) (c.input.drop c.offset) u)
    {i : Nat} {f : Format} (hi : fs[i]? = some f) (hu : Word m f u) : t.matches c = some i := by
  obtain ⟨N, O, w, z, rest, h⟩ := h
  unfold MatchTree.matches
  have hr := h.rem
  rw [show u ++ (w ++ (z ++ rest)) = (u ++ (w ++ z)) ++ rest by simp] at hr
  rw [hr]
  have hi' : Cat (Word m f) (Follow m next) (u ++ (w ++ z)) :=
    ⟨u, w ++ z, rfl, hu, (h.follow _).2 ⟨w, z, rfl, h.near, h.far⟩⟩
  refine grow_complete (follow_sem hm n) ho 80 _ _ t ht ?_ _ rest i (.cat f next) (mem_initial0.2 ⟨f, hi, rfl⟩) hi' ?_
  · rintro ⟨j, x⟩ he
    obtain ⟨g, hg, rfl⟩ := mem_initial0.1 he
    exact ⟨hf g (List.mem_of_getElem? hg), hn⟩
  · rintro p hp hpr ⟨j, x⟩ he hj ⟨q, hq⟩
    obtain ⟨g, hg, rfl⟩ := mem_initial0.1 he
    obtain ⟨a, b, e, ha, hb⟩ := hq
    obtain ⟨b1, b2, rfl, hb1, hb2⟩ := (h.follow b).1 hb
    have hx : Cat L N (a ++ b1) := ⟨a, b1, rfl, (hL a).2 ⟨g, List.mem_of_getElem? hg, ha⟩, hb1⟩
    have hc : Comp (a ++ b1) (u ++ (w ++ (z ++ p))) := by
      rcases Nat.le_total (a ++ b1).length (u ++ (w ++ (z ++ p))).length with hl | hl
      · exact .inl (List.prefix_of_prefix_length_le (l₃ := a ++ (b1 ++ b2)) ⟨b2, by simp⟩ ⟨q, by rw [← e]; simp⟩ hl)
      · exact .inr (List.prefix_of_prefix_length_le (l₃ := a ++ (b1 ++ b2)) ⟨q, by rw [← e]; simp⟩ ⟨b2, by simp⟩ hl)
    rcases h.only p hp hpr _ hx hc with h1 | ⟨h1, h2⟩
    · refine C13_words_disjoint m E hm ord ho n fs next hf hn t ht i j f g hi hg (Ne.symm hj) (u ++ (w ++ z)) ⟨hi', ?_⟩
      exact ⟨a, b1 ++ z, by rw [← List.append_assoc, ← List.append_assoc, h1], ha, (h.follow _).2 ⟨b1, z, rfl, hb1, h.far⟩⟩
    · have h3 := h2 _ hb2
      have h4 := congrArg List.length e
      have h5 := h2 _ h.far
      have h6 := List.length_pos_iff.2 hp
      subst h3 h5
      simp only [List.length_append, List.length_nil] at h4 h1
      omega

/-! ## Cutting at a position -/

theorem Covered.at {c c' : ReadCtxt} {L : Lang} (h : Covered c c' L) {u rest : List UInt8}
    (hr : c.input.drop c.offset = u ++ rest) (e : c' = ⟨c.input, c.offset + u.length⟩) : L u := by
  obtain ⟨a, r, h1, rfl, h3⟩ := h
  have hl : a.length = u.length := by
    have := congrArg ReadCtxt.offset e
    simp only [] at this
    omega
  rw [h1] at hr
  obtain ⟨rfl, -⟩ := List.append_inj hr hl
  exact h3

theorem Fits.prefix {L F : Lang} {rem u : List UInt8} (h : Fits L F rem u) : ∃ rest, rem = u ++ rest := by
  obtain ⟨N, O, w, z, rest, h⟩ := h
  exact ⟨_, h.rem⟩

theorem Fits.split {c c1 c2 : ReadCtxt} {A B L F F' : Lang} {u : List UInt8} (hl : ∀ v, Cat A B v → L v)
    (h1 : Covered c c1 A) (h2 : Covered c1 c2 B) (h : Fits L F (c.input.drop c.offset) u)
    (e : c2 = ⟨c.input, c.offset + u.length⟩) (hf : ∀ y, F' y ↔ Cat B F y) :
    ∃ a b, Fits A F' (c.input.drop c.offset) a ∧ c1 = ⟨c.input, c.offset + a.length⟩ ∧
      Fits B F (c1.input.drop c1.offset) b ∧ c2 = ⟨c1.input, c1.offset + b.length⟩ ∧ u = a ++ b := by
  obtain ⟨rest, hr⟩ := h.prefix
  obtain ⟨a, r, h3, rfl, h5⟩ := h1
  obtain ⟨b, r', h6, rfl, h8⟩ := h2
  simp only [] at h6
  rw [← List.drop_drop, h3, List.drop_left] at h6
  have hl' : (a ++ b).length = u.length := by
    have := congrArg ReadCtxt.offset e
    simp only [List.length_append] at this ⊢
    omega
  have hu : u = a ++ b := by
    rw [hr, h6, ← List.append_assoc] at h3
    exact (List.append_inj h3 hl'.symm).1
  subst hu
  refine ⟨a, b, h.left hl h5 h8 hf, rfl, ?_, rfl, rfl⟩
  simp only []
  rw [← List.drop_drop, h3, List.drop_left]
  rw [h3] at h
  exact h.right hl h5 h8

/-! ## Expressions -/

section
variable {R : Format → Decoder → Prop} {s : Scope Format} {s' : Scope Decoder}

theorem evalUsize_of (h : ScopeRel R s s') {e : Expr} {n : Nat} (he : DenotesNat e s n) : Decoder.evalUsize e s' = .ok n := by
  obtain ⟨v, h1, h2⟩ := he
  exact Panicky.bind_eq_ok.2 ⟨v, by rw [h.evalValue]; exact h1, h2⟩

theorem evalBool_of (h : ScopeRel R s s') {e : Expr} {b : Bool} (he : DenotesBool e s b) : Decoder.evalBool e s' = .ok b :=
  Panicky.bind_eq_ok.2 ⟨.bool b, by rw [h.evalValue]; exact he, rfl⟩

theorem lambdaBool_of (h : ScopeRel R s s') {e : Expr} {x : Value} {b : Bool} (he : Sends e s x (.bool b)) :
    Decoder.lambdaBool e s' x = .ok b :=
  Panicky.bind_eq_ok.2 ⟨.bool b, by rw [h.evalLambda]; exact he, rfl⟩

theorem evalItems_of (h : ScopeRel R s s') {e : Expr} {vs : List Value} (he : DenotesItems e s vs) :
    Decoder.evalItems e s' = .ok vs := by
  obtain ⟨v, q, h1, h2, rfl⟩ := he
  exact Panicky.bind_eq_ok.2 ⟨v, by rw [h.evalValue]; exact h1,
    Panicky.bind_eq_ok.2 ⟨q, Compiler.unwrap_eq_ok.2 h2, rfl⟩⟩

theorem bytesOf_of {vs : List Value} {bs : List UInt8} (h : AreBytes vs bs) : Decoder.bytesOf vs = .ok bs := by
  induction h with
  | nil => rfl
  | cons h1 _ ih =>
    exact Panicky.bind_eq_ok.2 ⟨_, h1, Panicky.bind_eq_ok.2 ⟨_, ih, rfl⟩⟩

theorem evalView_of (h : ScopeRel R s s') {x : String} {c : ReadCtxt} (he : ViewAt s (.var x) c) :
    Decoder.evalView s' (.var x) = .ok c := by
  cases he with
  | var he =>
    refine Outcome.ofPanicky_eq_ok.2 (Compiler.unwrap_eq_ok.2 ?_)
    rw [h.getView]; exact he

theorem evalArgs_of (h : ScopeRel R s s') {es : List (String × Expr)} {bs : List (String × ViewOrValue)}
    (he : ArgsAre s es bs) : Decoder.evalArgs s' es = .ok bs := by
  induction he with
  | nil => rfl
  | cons h1 _ ih =>
    exact Outcome.bind_eq_ok.2 ⟨_, Outcome.ofPanicky_eq_ok.2 (by rw [h.evalValue]; exact h1),
      Outcome.bind_eq_ok.2 ⟨_, ih, rfl⟩⟩

theorem evalViewArgs_of (h : ScopeRel R s s') {es : List (String × ViewExpr)} {bs : List (String × ViewOrValue)}
    (he : ViewsAre s es bs) : (∀ p ∈ es, ∃ x, p.2 = .var x) → Decoder.evalViewArgs s' es = .ok bs := by
  induction he with
  | nil => intro _; rfl
  | @cons x e c as bs h1 _ ih =>
    intro hv
    obtain ⟨y, hy⟩ := hv _ List.mem_cons_self
    simp only [] at hy
    subst hy
    exact Outcome.bind_eq_ok.2 ⟨_, evalView_of h h1,
      Outcome.bind_eq_ok.2 ⟨_, ih fun p hp => hv p (List.mem_cons_of_mem _ hp), rfl⟩⟩

theorem captureLoop_of {n : Nat} : ∀ {c : ReadCtxt} {acc : List Value}, (∀ i < n, c.offset + i < c.input.length) →
    Decoder.captureLoop n c acc = .ok (acc ++ ((c.input.drop c.offset).take n).map Value.u8) := by
  induction n with
  | zero => intro c acc _; simp [Decoder.captureLoop]
  | succ n ih =>
    intro c acc h
    have hlt : c.offset < c.input.length := by simpa using h 0 (by omega)
    simp only [Decoder.captureLoop, ReadCtxt.readByte, List.getElem?_eq_getElem hlt]
    rw [ih (by intro i hi; have := h (i + 1) (by omega); simp only []; omega)]
    simp only []
    rw [List.drop_eq_getElem_cons hlt, List.take_succ_cons, List.map_cons, List.append_assoc]
    rfl
end

/-! ## Compiled alternatives -/

theorem CompilesAll.at {R : CRel} {fs : List Format} {next : Next} {ds : List Decoder}
    (hc : CompilesAll R fs next ds) {i : Nat} {f : Format} (hf : fs[i]? = some f) :
    ∃ d, ds[i]? = some d ∧ Compiles R f next d := by
  induction fs generalizing ds i with
  | nil => simp at hf
  | cons g fs ih =>
    cases hc with
    | acons h1 h2 =>
      cases i with
      | zero => simp at hf; subst hf; exact ⟨_, rfl, h1⟩
      | succ i => simpa using ih h2 (by simpa using hf)

theorem CompilesBranches.at {R : CRel} {fs : List (Pattern × Format)} {next : Next} {ds : List (Pattern × Decoder)}
    (hc : CompilesBranches R fs next ds) {i : Nat} {pat : Pattern} {f : Format} (hf : fs[i]? = some (pat, f)) {head : Value}
    {bs : List (String × Value)} (hb : head.matchesPat pat = some bs)
    (hn : ∀ j < i, ∀ q g, fs[j]? = some (q, g) → head.matchesPat q = none) :
    ∃ d, Compiles R f next d ∧ ∀ ix p, Decoder.matchLoop p head ix ds =
      (p bs d >>= fun w => .ok (w.map fun r => (.branch (ix + i) r.1, r.2)) : Outcome DecodeErr Parsed) := by
  induction fs generalizing ds i with
  | nil => simp at hf
  | cons g fs ih =>
    cases hc with
    | @bcons q g _ _ d ds h1 h2 =>
      cases i with
      | zero =>
        simp at hf
        obtain ⟨rfl, rfl⟩ := hf
        exact ⟨d, h1, fun ix p => by simp only [Decoder.matchLoop, hb]; rfl⟩
      | succ i =>
        obtain ⟨d', h3, h4⟩ := ih h2 (by simpa using hf) fun j hj q g hg => hn (j + 1) (by omega) q g (by simpa using hg)
        refine ⟨d', h3, fun ix p => ?_⟩
        simp only [Decoder.matchLoop, hn 0 (by omega) q g rfl]
        rw [h4, show ix + 1 + i = ix + (i + 1) by omega]

/-! ## Runs -/

/-- with enough fuel the decoder returns this -/
def Found (env : Env) (d : Decoder) (s : Scope Decoder) (c : ReadCtxt) (v : Value) (c' : ReadCtxt) (k : Nat) : Prop :=
  ∃ N w, (∀ n, N ≤ n → Decoder.parse env n d s c = .ok w) ∧ w.value = (v, c') ∧ w.errs.length = k

/-- one run after another; `J` holds of every position and the number of runs left -/
inductive Steps (env : Env) (d : Decoder) (s : Scope Decoder) (J : ReadCtxt → Nat → Prop) :
    ReadCtxt → List Value → ReadCtxt → Nat → Prop
  | nil {c} : J c 0 → Steps env d s J c [] c 0
  | cons {c v c' vs c'' k k'} : J c (vs.length + 1) → Found env d s c v c' k → Steps env d s J c' vs c'' k' →
      Steps env d s J c (v :: vs) c'' (k + k')

variable {env : Env} {d : Decoder} {s' : Scope Decoder} {J : ReadCtxt → Nat → Prop}

/-- what a loop has added to its accumulator -/
def Adds (acc acc' : Decoder.Acc) (vs : List Value) (c' : ReadCtxt) (k : Nat) : Prop :=
  acc'.value = (acc.value.1 ++ vs, c') ∧ acc'.errs.length = k + acc.errs.length

theorem Adds.cons {acc acc' : Decoder.Acc} {w : Parsed} {v : Value} {vs : List Value} {c c' : ReadCtxt} {k k' : Nat}
    (h : Adds (Decoder.push acc w) acc' vs c' k') (h1 : w.value = (v, c)) (h2 : w.errs.length = k) :
    Adds acc acc' (v :: vs) c' (k + k') := by
  obtain ⟨h3, h4⟩ := h
  refine ⟨by rw [h3]; simp [Decoder.push, h1], ?_⟩
  rw [h4]; simp [Decoder.push, h2]; omega

theorem Steps.fold (h : Steps env d s' J c vs c' k) : ∀ acc : Decoder.Acc, acc.value.2 = c →
    ∃ N acc', (∀ n, N ≤ n → Decoder.foldItems (fun (_ : Unit) c => Decoder.parse env n d s' c)
      (List.replicate vs.length ()) acc = .ok acc') ∧ Adds acc acc' vs c' k := by
  induction h with
  | nil _ =>
    intro acc hc
    exact ⟨0, acc, fun n _ => rfl, by simp [← hc], by simp⟩
  | cons _ h1 _ ih =>
    intro acc hc
    obtain ⟨N, w, h2, h3, h4⟩ := h1
    obtain ⟨N', acc', h5, h6⟩ := ih (Decoder.push acc w) (by simp [Decoder.push, h3])
    refine ⟨max N N', acc', fun n hn => ?_, h6.cons h3 h4⟩
    simp only [List.length_cons, List.replicate_succ, Decoder.foldItems]
    exact Outcome.bind_eq_ok.2 ⟨w, by rw [hc]; exact h2 n (by omega), h5 n (by omega)⟩

theorem Steps.while_ {t : MatchTree} (h : Steps env d s' J c vs c' k)
    (ht : ∀ c n, J c n → t.matches c = some (if n = 0 then 1 else 0)) : ∀ acc : Decoder.Acc, acc.value.2 = c →
    ∃ N acc', (∀ n j, N ≤ n → N ≤ j → Decoder.whileLoop t (fun c => Decoder.parse env n d s' c) j acc = .ok acc') ∧
      Adds acc acc' vs c' k := by
  induction h with
  | nil hj =>
    intro acc hc
    refine ⟨1, acc, fun n j _ hj' => ?_, by simp [← hc], by simp⟩
    obtain ⟨j, rfl⟩ : ∃ i, j = i + 1 := ⟨j - 1, by omega⟩
    simp only [Decoder.whileLoop]
    rw [hc, ht _ _ hj]
    rfl
  | cons hj h1 _ ih =>
    intro acc hc
    obtain ⟨N, w, h2, h3, h4⟩ := h1
    obtain ⟨N', acc', h5, h6⟩ := ih (Decoder.push acc w) (by simp [Decoder.push, h3])
    refine ⟨max N N' + 1, acc', fun n j hn hj' => ?_, h6.cons h3 h4⟩
    obtain ⟨j, rfl⟩ : ∃ i, j = i + 1 := ⟨j - 1, by omega⟩
    simp only [Decoder.whileLoop]
    rw [hc, ht _ _ hj, if_neg (by omega)]
    exact Outcome.bind_eq_ok.2 ⟨w, h2 n (by omega), h5 n j (by omega) (by omega)⟩

theorem Steps.until_ {t : MatchTree} (h : Steps env d s' J c vs c' k)
    {K : Nat} (ht : ∀ c n, J c n → n < K → t.matches c = some (if n = 0 then 0 else 1)) : vs.length ≤ K → vs ≠ [] →
    ∀ acc : Decoder.Acc, acc.value.2 = c →
    ∃ N acc', (∀ n j, N ≤ n → N ≤ j → Decoder.untilLoop t (fun c => Decoder.parse env n d s' c) j acc = .ok acc') ∧
      Adds acc acc' vs c' k := by
  induction h with
  | nil hj => intro _ h; exact absurd rfl h
  | @cons c v c1 vs c2 k k' hj h1 hs ih =>
    intro hK _ acc hc
    simp only [List.length_cons] at hK
    obtain ⟨N, w, h2, h3, h4⟩ := h1
    by_cases hv : vs = []
    · subst hv
      cases hs with
      | nil hj1 =>
        refine ⟨N + 1, Decoder.push acc w, fun n j hn hj' => ?_, by simp [Decoder.push, h3], by simp [Decoder.push, h4]⟩
        obtain ⟨j, rfl⟩ : ∃ i, j = i + 1 := ⟨j - 1, by omega⟩
        simp only [Decoder.untilLoop]
        refine Outcome.bind_eq_ok.2 ⟨w, by rw [hc]; exact h2 n (by omega), ?_⟩
        rw [h3, ht _ _ hj1 (by omega)]
        rfl
    · obtain ⟨N', acc', h5, h6⟩ := ih (by omega) hv (Decoder.push acc w) (by simp [Decoder.push, h3])
      refine ⟨max N N' + 1, acc', fun n j hn hj' => ?_, h6.cons h3 h4⟩
      obtain ⟨j, rfl⟩ : ∃ i, j = i + 1 := ⟨j - 1, by omega⟩
      simp only [Decoder.untilLoop]
      refine Outcome.bind_eq_ok.2 ⟨w, by rw [hc]; exact h2 n (by omega), ?_⟩
      cases hs with
      | nil => exact absurd rfl hv
      | cons hj1 _ _ =>
        rw [h3, ht _ _ hj1 (by simp only [List.length_cons] at hK; omega), if_neg (by omega)]
        exact h5 n j (by omega) (by omega)

/-- from the decoder of a part to the decoder of the whole -/
theorem Found.mk {d : Decoder} {s : Scope Decoder} {c c' : ReadCtxt} {v : Value} {k N : Nat} {w : Parsed}
    (h : ∀ n, N ≤ n → Decoder.parse env (n + 1) d s c = .ok w) (h1 : w.value = (v, c')) (h2 : w.errs.length = k) :
    Found env d s c v c' k := by
  refine ⟨N + 1, w, fun n hn => ?_, h1, h2⟩
  obtain ⟨n, rfl⟩ : ∃ i, n = i + 1 := ⟨n - 1, by omega⟩
  exact h n (by omega)

/-- from the decoder of a part to the decoder of the whole -/
theorem Found.wrap {d d' : Decoder} {s s1 : Scope Decoder} {c c1 c' c2 : ReadCtxt} {v v' : Value} {k : Nat}
    (g : Value × ReadCtxt → Value × ReadCtxt) (h : Found env d s1 c1 v c' k)
    (hp : ∀ n w, Decoder.parse env n d s1 c1 = .ok w → w.value = (v, c') → w.errs.length = k →
      Decoder.parse env (n + 1) d' s c = .ok (w.map g))
    (hg : g (v, c') = (v', c2)) : Found env d' s c v' c2 k := by
  obtain ⟨N, w, h1, h2, h3⟩ := h
  refine .mk (fun n hn => hp n w (h1 n hn) h2 h3) ?_ ?_
  · rw [← hg, ← h2]; rfl
  · rw [← h3]; rfl

/-! ## The main induction -/

/-- the program `env` is compiled from the module `m` -/
structure Setup (m : Module) (E : Nat → Bool) (o : BuildOpts) (tr : Bool) (M : List ((Nat × Next) × Nat)) (env : Env) :
    Prop where
  plain : m.Plain E
  regular : m.Regular E o tr
  order : o.ord.Valid
  calls : ∀ level next k it, m.items[level]? = some it → ((level, next), k) ∈ M →
    ∃ d, env.program[k]? = some d ∧ Compiles (.of m o M) it.format next d

variable {M : List ((Nat × Next) × Nat)} {R : Format → Decoder → Prop}

theorem cat_nil_follow {L : Lang} (y : List UInt8) : L y ↔ Cat (fun u => u = []) L y := (Cat.nil_left (fun _ => Iff.rfl) y).symm

/-- inside a prefix-free format compiled without what follows -/
theorem Fits.alone {f : Format} (hf : PrefixFree m f) {F : Lang} {rem u : List UInt8} (h : Fits (Word m f) F rem u) :
    Fits (Word m f) (Follow m .empty) rem u := by
  obtain ⟨N, O, w, z, rest, h⟩ := h
  rw [h.rem]
  have := Fits.free (F := Follow m .empty) (rest := w ++ (z ++ rest)) hf h.word rfl
  simpa using this

theorem repeat_words {f : Format} {n : Nat} {u : List UInt8} (h : Power m f (n + 1) u) :
    Word m (.tuple [f, .repeat_ f]) u := by
  obtain ⟨a, b, rfl, h1, h2⟩ := power_succ.1 h
  have : Words m [f, .repeat_ f] (a ++ (b ++ [])) := .cons h1 (.cons (.repeat_ h2) .nil)
  rw [List.append_nil] at this
  exact .tuple this

theorem words_repeat {f : Format} {u : List UInt8} (h : Word m (.tuple [f, .repeat_ f]) u) : ∃ n, Power m f n u := by
  cases h with
  | tuple h =>
    obtain ⟨a, c, rfl, h1, h0⟩ := words_cons.1 h
    obtain ⟨b, b', rfl, h2, h3⟩ := words_cons.1 h0
    cases words_nil.1 h3
    clear h h0
    rw [List.append_nil]
    obtain ⟨n, h2⟩ : ∃ n, Power m f n b := by
      generalize hg : Format.repeat_ f = g at h2
      cases h2 <;> cases hg
      exact ⟨_, by assumption⟩
    exact ⟨_, .succ h1 h2⟩

theorem word_empty {u : List UInt8} : Word m Format.EMPTY u ↔ u = [] :=
  ⟨fun h => by cases h with | tuple h => exact words_nil.1 h, fun h => .tuple (words_nil.2 h)⟩

/-- the positions of a loop -/
def LoopAt (m : Module) (f : Format) (next : Next) (c' c : ReadCtxt) (n : Nat) : Prop :=
  ∃ u, Fits (fun u => ∃ n, Power m f n u) (Follow m next) (c.input.drop c.offset) u ∧ Power m f n u ∧
    c' = ⟨c.input, c.offset + u.length⟩

theorem loopAt_step {f : Format} {next : Next} {c' c c1 : ReadCtxt} {n : Nat} (h : LoopAt m f next c' c (n + 1))
    (h1 : Covered c c1 (Word m f)) (h2 : Covered c1 c' (Power m f n)) :
    (∃ a, Fits (Word m f) (Follow m (.repeat_ f next)) (c.input.drop c.offset) a ∧ c1 = ⟨c.input, c.offset + a.length⟩) ∧
      LoopAt m f next c' c1 n := by
  obtain ⟨u, hu, hp, he⟩ := h
  obtain ⟨a, b, h3, h4, h5, h6, -⟩ := hu.split (A := Word m f) (B := fun u => ∃ n, Power m f n u)
    (F' := Follow m (.repeat_ f next))
    (by rintro v ⟨a, b, rfl, ha, n, hb⟩; exact ⟨n + 1, .succ ha hb⟩) h1 (h2.imp fun _ h => ⟨_, h⟩) he (fun _ => Iff.rfl)
  obtain ⟨rest, hr⟩ := h5.prefix
  exact ⟨⟨a, h3, h4⟩, b, h5, h2.at hr h6, h6⟩

/-- the positions of a loop of at least one round that starts with `K` rounds to go -/
def Loop1At (m : Module) (f : Format) (next : Next) (K : Nat) (c' c : ReadCtxt) (n : Nat) : Prop :=
  LoopAt m f next c' c n ∨
    (n = K ∧ ∃ u, Fits (Word m (.repeat1 f)) (Follow m next) (c.input.drop c.offset) u ∧ c' = ⟨c.input, c.offset + u.length⟩)

theorem loop1At_step {f : Format} {next : Next} {K : Nat} {c' c c1 : ReadCtxt} {n : Nat} (h : Loop1At m f next K c' c (n + 1))
    (h1 : Covered c c1 (Word m f)) (h2 : Covered c1 c' (Power m f n)) :
    (∃ a, Fits (Word m f) (Follow m (.repeat_ f next)) (c.input.drop c.offset) a ∧ c1 = ⟨c.input, c.offset + a.length⟩) ∧
      Loop1At m f next K c' c1 n := by
  rcases h with h | ⟨-, u, hu, he⟩
  · exact ⟨(loopAt_step h h1 h2).1, .inl (loopAt_step h h1 h2).2⟩
  · obtain ⟨a, b, h3, h4, h5, h6, -⟩ := hu.split (A := Word m f) (B := fun u => ∃ n, Power m f n u)
      (F' := Follow m (.repeat_ f next))
      (by rintro v ⟨a, b, rfl, ha, n, hb⟩; exact .repeat1 (.succ ha hb)) h1 (h2.imp fun _ h => ⟨_, h⟩) he (fun _ => Iff.rfl)
    obtain ⟨rest, hr⟩ := h5.prefix
    exact ⟨⟨a, h3, h4⟩, .inl ⟨b, h5, h2.at hr h6, h6⟩⟩

/-- the two alternatives of a loop -/
theorem loop_words {f : Format} {v : List UInt8} :
    (∃ n, Power m f n v) ↔ Word m (.tuple [f, .repeat_ f]) v ∨ Word m Format.EMPTY v := by
  constructor
  · rintro ⟨n, h⟩
    cases n with
    | zero => exact .inr (word_empty.2 (power_zero.1 h))
    | succ n => exact .inl (repeat_words h)
  · rintro (h | h)
    · exact words_repeat h
    · exact ⟨0, power_zero.2 (word_empty.1 h)⟩

theorem loop_plain {f : Format} (hp : f.Plain m E m.items.length false) {b : Bool} :
    (Format.tuple [f, .repeat_ f]).Plain m E m.items.length b ∧ Format.EMPTY.Plain m E m.items.length b := by
  refine ⟨?_, ?_⟩
  · simp only [Format.Plain, Format.FieldsPlain, List.isEmpty_cons, Bool.false_and]
    exact ⟨hp, hp, trivial⟩
  · simp only [Format.EMPTY, Format.Plain, Format.FieldsPlain]

/-- the positions of a counted loop over a prefix-free format -/
def CountAt (m : Module) (f : Format) (next : Next) (c' c : ReadCtxt) (n : Nat) : Prop :=
  ∃ u w rest, c.input.drop c.offset = u ++ (w ++ rest) ∧ Power m f n u ∧ Follow m next w ∧
    c' = ⟨c.input, c.offset + u.length⟩

theorem countAt_step {f : Format} (hf : PrefixFree m f) {next : Next} {c' c c1 : ReadCtxt} {n : Nat}
    (h : CountAt m f next c' c (n + 1)) (h1 : Covered c c1 (Word m f)) (h2 : Covered c1 c' (Power m f n)) :
    (∃ a, Fits (Word m f) (Follow m (.repeat_ f next)) (c.input.drop c.offset) a ∧ c1 = ⟨c.input, c.offset + a.length⟩) ∧
      CountAt m f next c' c1 n := by
  obtain ⟨u, w, rest, hr, hp, hw, he⟩ := h
  obtain ⟨a, r, h3, rfl, h5⟩ := h1
  obtain ⟨b, r', h6, rfl, h8⟩ := h2
  simp only [] at h6
  rw [← List.drop_drop, h3, List.drop_left] at h6
  subst h6
  have hl' : (a ++ b).length = u.length := by
    have := congrArg ReadCtxt.offset he
    simp only [List.length_append] at this ⊢
    omega
  have := h3.symm.trans hr
  rw [← List.append_assoc] at this
  obtain ⟨rfl, rfl⟩ := List.append_inj this hl'
  refine ⟨⟨a, ?_, rfl⟩, b, w, rest, ?_, h8, hw, rfl⟩
  · rw [h3]
    have := Fits.free (L := Word m f) (F := Follow m (.repeat_ f next)) (rest := rest) hf h5
      (w := b ++ w) ⟨b, w, rfl, ⟨n, h8⟩, hw⟩
    simpa using this
  · simp only []
    rw [← List.drop_drop, h3, List.drop_left]

set_option maxHeartbeats 2000000 in
mutual
theorem Grammar.Parses.found (S : Setup m E o tr M env) :
    ∀ {f s c v c' k}, Parses m never f s c v c' k → ∀ {next d s' u}, f.Plain m E m.items.length next.isDone →
      f.Regular m E o tr → next.Plain m E → Compiles (.of m o M) f next d → ScopeRel R s s' → (tr = true ∨ k = 0) →
      Fits (Word m f) (Follow m next) (c.input.drop c.offset) u → c' = ⟨c.input, c.offset + u.length⟩ →
      Found env d s' c v c' k
  | _, _, c, _, _, _, .itemVar (it := it) (es := es) (vs := vs) hi ha hv h, next, _, _, u, hp, hg, hn, hc, hs, hk, hf, he => by
    cases hc with
    | @itemVar _ _ _ it' _ dep k1 h1 h2 h3 =>
      have h1' : m.items[_]? = some it' := h1
      rw [hi] at h1'
      cases h1'
      simp only [Format.Regular, Format.Plain, Format.Each, Format.RegularHere] at hp hg
      obtain ⟨d, h4, h5⟩ := S.calls _ _ _ _ hi h3
      have hw := hf.mono (L' := Word m _) (fun _ => .itemVar hi) (by
        obtain ⟨rest, hr⟩ := hf.prefix
        exact (h.covered S.plain S.regular (S.plain _ _ hi) (S.regular _ _ hi)).at hr he)
      have hu' : Fits (Word m it.format) (Follow m (if dep = true then next else .empty)) (c.input.drop c.offset) u := by
        cases dep with
        | true => exact hw
        | false =>
          refine hw.alone ?_
          rcases hg.2 _ hi with h6 | h6
          · have h2' : Format.dependsOnNext m o _ = .ok false := h2
            rw [h6] at h2'; cases h2'
          · exact h6
      have := h.found S (next := if dep = true then next else .empty) (s' := .multi (es ++ vs) .empty)
        (Format.Plain.mono (by omega) (by
          intro hE; have := hp.2.2 hE; cases dep with
          | true => exact this
          | false => rfl) (S.plain _ _ hi)) (S.regular _ _ hi)
        (by cases dep with
          | true => exact hn
          | false => trivial) h5 (.multi .empty) hk hu' he
      refine this.wrap id (fun n w h6 _ _ => ?_) rfl
      unfold Decoder.parse
      refine Outcome.bind_eq_ok.2 ⟨_, evalArgs_of hs ha, Outcome.bind_eq_ok.2 ⟨_, evalViewArgs_of hs hv ?_,
        Outcome.bind_eq_ok.2 ⟨_, Outcome.ofPanicky_eq_ok.2 (Compiler.unwrap_eq_ok.2 h4), h6⟩⟩⟩
      rintro ⟨x, y⟩ hxy
      exact hg.1 y (List.of_mem_zip hxy).2
  | _, _, _, _, _, _, .endOfInput h, _, _, _, _, hp, hg, hn, hc, hs, hk, hf, he => by
    cases hc
    refine .mk (N := 0) (w := .new _) (fun n _ => ?_) rfl rfl
    unfold Decoder.parse
    simp only [((ReadCtxt.C06_readByte _).2).2 h]
  | _, _, _, _, _, _, .byte (b := b) h1 h2, _, _, _, _, hp, hg, hn, hc, hs, hk, hf, he => by
    cases hc
    refine .mk (N := 0) (w := .new _) (fun n _ => ?_) rfl rfl
    unfold Decoder.parse
    simp only [((ReadCtxt.C06_readByte _).1 b _).2 ⟨h1, rfl⟩, h2, if_true]
  | _, _, _, _, _, _, .variant h, _, _, _, _, hp, hg, hn, hc, hs, hk, hf, he => by
    simp only [Format.Regular, Format.Plain, Format.Each] at hp hg
    cases hc with
    | variant hc =>
      refine (h.found S hp hg.2 hn hc hs hk (hf.mono (fun _ => .variant) (by
        obtain ⟨rest, hr⟩ := hf.prefix
        exact (h.covered S.plain S.regular hp hg.2).at hr he)) he).wrap (fun r => (.variant _ r.1, r.2)) (fun n w h6 _ _ => ?_) rfl
      unfold Decoder.parse
      exact Outcome.bind_eq_ok.2 ⟨_, h6, rfl⟩
  | _, _, _, _, _, _, .union hi h, _, _, _, _, hp, hg, hn, hc, hs, hk, hf, he => by
    simp only [Format.Regular, Format.Plain, Format.Each] at hp hg
    cases hc with
    | union hc ht =>
      have hmem := List.mem_of_getElem? hi
      obtain ⟨rest, hr⟩ := hf.prefix
      have hw := (h.covered S.plain S.regular (hp.2.get _ hmem) (EachOf.get hg.2 _ hmem)).at hr he
      obtain ⟨d, h1, h2⟩ := CompilesAll.at hc hi
      have hsel := select S.plain S.order (hp.2.get) hn ht (L := Word m (.union _))
        (fun v => ⟨fun h => by cases h with | union h1 h2 => exact ⟨_, h1, h2⟩, fun ⟨f, h1, h2⟩ => .union h1 h2⟩) hf hi hw
      refine (h.found S (hp.2.get _ hmem) (EachOf.get hg.2 _ hmem) hn h2 hs hk (hf.mono (fun _ => .union hmem) hw) he).wrap
        (fun r => (.branch _ r.1, r.2)) (fun n w h6 _ _ => ?_) rfl
      unfold Decoder.parse
      simp only [hsel]
      exact Outcome.bind_eq_ok.2 ⟨_, Outcome.ofPanicky_eq_ok.2 (Compiler.unwrap_eq_ok.2 h1), Outcome.bind_eq_ok.2 ⟨_, h6, rfl⟩⟩
  | _, _, _, _, _, _, .unionNondet (i := i) hi hrej h, _, _, _, _, hp, hg, hn, hc, hs, hk, hf, he => by
    simp only [Format.Regular, Format.Plain, Format.Each] at hp hg
    cases i with
    | succ i =>
      have := (List.getElem?_eq_some_iff.1 hi).1
      exact (hrej 0 (by omega) _ (List.getElem?_eq_getElem (by omega))).elim
    | zero =>
      cases hc with
      | unionNondet hc =>
        have hmem := List.mem_of_getElem? hi
        obtain ⟨rest, hr⟩ := hf.prefix
        have hw := (h.covered S.plain S.regular (hp.2.get _ hmem) (EachOf.get hg.2 _ hmem)).at hr he
        obtain ⟨d, h1, h2⟩ := CompilesAll.at hc hi
        refine (h.found S (hp.2.get _ hmem) (EachOf.get hg.2 _ hmem) hn h2 hs hk (hf.mono (fun _ => .unionNondet hmem) hw) he).wrap
          (fun r => (.branch _ r.1, r.2)) (fun n w h6 _ _ => ?_) rfl
        unfold Decoder.parse
        cases hc with
        | anil => simp at h1
        | acons _ _ =>
          simp at h1
          subst h1
          simp only [Decoder.parallelLoop, h6]
  | _, _, _, _, _, _, .tuple h, _, _, _, _, hp, hg, hn, hc, hs, hk, hf, he => by
    simp only [Format.Regular, Format.Plain, Format.Each] at hp hg
    cases hc with
    | tuple hc =>
      obtain ⟨rest, hr⟩ := hf.prefix
      obtain ⟨N, acc, h1, h2, h3⟩ := h.found S hp hg.2 hn hc hs hk (hf.mono (fun _ => .tuple)
        ((h.covered S.plain S.regular hp hg.2).at hr he)) he (.new ([], _)) rfl
      refine .mk (N := N) (w := acc.map fun r => (.tuple r.1, r.2)) (fun n hn => ?_) (by simp only [WithErr.map, h2]; rfl) h3
      unfold Decoder.parse
      exact Outcome.bind_eq_ok.2 ⟨_, h1 n hn, rfl⟩
  | _, _, _, _, _, _, .sequence h, _, _, _, _, hp, hg, hn, hc, hs, hk, hf, he => by
    simp only [Format.Regular, Format.Plain, Format.Each] at hp hg
    cases hc with
    | sequence hc =>
      obtain ⟨rest, hr⟩ := hf.prefix
      obtain ⟨N, acc, h1, h2, h3⟩ := h.found S hp hg.2 hn hc hs hk (hf.mono (fun _ => .sequence)
        ((h.covered S.plain S.regular hp hg.2).at hr he)) he (.new ([], _)) rfl
      refine .mk (N := N) (w := acc.map fun r => (.seq (.strict r.1), r.2)) (fun n hn => ?_) (by simp only [WithErr.map, h2]; rfl) h3
      unfold Decoder.parse
      exact Outcome.bind_eq_ok.2 ⟨_, h1 n hn, rfl⟩
  | _, _, _, _, _, _, .repeat_ (f := f) (vs := vs) h, next, _, _, _, hp, hg, hn, hc, hs, hk, hf, he => by
    simp only [Format.Regular, Format.Plain, Format.Each] at hp hg
    cases hc with
    | @repeat_ _ _ d t _ hc ht =>
      obtain ⟨rest, hr⟩ := hf.prefix
      have hw := (h.covered S.plain S.regular hp hg.2).at hr he
      have hst := h.found S (J := LoopAt m f next _) hp hg.2 hn hc hs hk (fun _ _ _ => loopAt_step)
        ⟨_, hf.mono (fun _ ⟨n, h⟩ => .repeat_ h) ⟨_, hw⟩, hw, he⟩
      have ht' : ∀ c' c n, LoopAt m f next c' c n → t.matches c = some (if n = 0 then 1 else 0) := by
        rintro _ c n ⟨u, hu, hpw, -⟩
        have hpl : ∀ g ∈ [.tuple [f, .repeat_ f], Format.EMPTY], g.Plain m E m.items.length next.isDone := by
          simp only [List.forall_mem_cons]
          exact ⟨(loop_plain hp).1, (loop_plain hp).2, by simp⟩
        have hL : ∀ v, (∃ n, Power m f n v) ↔ ∃ g ∈ [.tuple [f, .repeat_ f], Format.EMPTY], Word m g v := by
          intro v
          rw [loop_words]
          simp
        cases n with
        | zero => exact select S.plain S.order hpl hn ht hL hu (i := 1) rfl (word_empty.2 (power_zero.1 hpw))
        | succ n => exact select S.plain S.order hpl hn ht hL hu (i := 0) rfl (repeat_words hpw)
      obtain ⟨N, acc, h1, h2, h3⟩ := hst.while_ (t := t) (ht' _) (.new ([], _)) rfl
      refine .mk (N := N) (w := acc.map fun r => (.seq (.strict r.1), r.2)) (fun n hn => ?_) (by simp only [WithErr.map, h2]; rfl) h3
      unfold Decoder.parse
      exact Outcome.bind_eq_ok.2 ⟨_, h1 n n hn hn, rfl⟩
  | _, _, _, _, _, _, .repeat1 (f := f) (vs := vs) h hne, next, _, _, _, hp, hg, hn, hc, hs, hk, hf, he => by
    simp only [Format.Regular, Format.Plain, Format.Each] at hp hg
    cases hc with
    | @repeat1 _ _ d t _ hc ht =>
      have hst := h.found S (J := Loop1At m f next vs.length _) hp hg.2 hn hc hs hk (fun _ _ _ => loop1At_step)
        (.inr ⟨rfl, _, hf, he⟩)
      have ht' : ∀ c' c n, Loop1At m f next vs.length c' c n → n < vs.length → t.matches c = some (if n = 0 then 0 else 1) := by
        intro _ c n hJ hlt
        obtain ⟨u, hu, hpw, -⟩ := hJ.resolve_right (fun h => by omega)
        have hpl : ∀ g ∈ [Format.EMPTY, .tuple [f, .repeat_ f]], g.Plain m E m.items.length next.isDone := by
          simp only [List.forall_mem_cons]
          exact ⟨(loop_plain hp).2, (loop_plain hp).1, by simp⟩
        have hL : ∀ v, (∃ n, Power m f n v) ↔ ∃ g ∈ [Format.EMPTY, .tuple [f, .repeat_ f]], Word m g v := by
          intro v
          rw [loop_words]
          simp [or_comm]
        cases n with
        | zero => exact select S.plain S.order hpl hn ht hL hu (i := 0) rfl (word_empty.2 (power_zero.1 hpw))
        | succ n => exact select S.plain S.order hpl hn ht hL hu (i := 1) rfl (repeat_words hpw)
      obtain ⟨N, acc, h1, h2, h3⟩ := hst.until_ (t := t) (K := vs.length) (ht' _) (Nat.le_refl _) hne (.new ([], _)) rfl
      refine .mk (N := N) (w := acc.map fun r => (.seq (.strict r.1), r.2)) (fun n hn => ?_)
          (by simp only [WithErr.map, h2]; rfl) h3
      unfold Decoder.parse
      exact Outcome.bind_eq_ok.2 ⟨_, h1 n n hn hn, rfl⟩
  | _, _, _, _, _, _, .repeatCount (f := f) hd h hl, next, _, _, _, hp, hg, hn, hc, hs, hk, hf, he => by
    simp only [Format.Regular, Format.Plain, Format.Each, Format.RegularHere] at hp hg
    cases hc with
    | repeatCount hc =>
      obtain ⟨w, rest, hr, hw⟩ := hf.next
      have hw' := (h.covered S.plain S.regular hp.2 hg.2).at hr he
      have hst := h.found S (J := CountAt m f next _) hp.2 hg.2 hn hc hs hk (fun _ _ _ => countAt_step hg.1.1)
        ⟨_, w, rest, hr, hw', hw, he⟩
      obtain ⟨N, acc, h1, h2, h3⟩ := hst.fold (.new ([], _)) rfl
      refine .mk (N := N) (w := acc.map fun r => (.seq (.strict r.1), r.2)) (fun n hn => ?_) (by simp only [WithErr.map, h2]; rfl) h3
      unfold Decoder.parse
      exact Outcome.bind_eq_ok.2 ⟨_, Outcome.ofPanicky_eq_ok.2 (evalUsize_of hs hd),
        Outcome.bind_eq_ok.2 ⟨_, by rw [← hl]; exact h1 n hn, rfl⟩⟩
  | _, _, _, _, _, _, .repeatBetween _ _ _ _ _, _, _, _, _, hp, hg, hn, hc, hs, hk, hf, he => by
    simp only [Format.Regular, Format.Each, Format.RegularHere] at hg
    exact hg.1.elim
  | _, _, _, _, _, _, .maybe_some hd h, _, _, _, _, hp, hg, hn, hc, hs, hk, hf, he => by
    simp only [Format.Regular, Format.Plain, Format.Each, Format.RegularHere] at hp hg
    cases hc with
    | maybe hc =>
      have hw := hf.mono (L' := Word m _) (fun _ => .maybe_some) (by
        obtain ⟨rest, hr⟩ := hf.prefix
        exact (h.covered S.plain S.regular hp hg.2).at hr he)
      refine (h.found S (next := .empty) (hp.mono (Nat.le_refl _) fun _ => rfl) hg.2 trivial hc hs hk (hw.alone hg.1) he).wrap
        (fun r => (.optSome r.1, r.2)) (fun n w h6 _ _ => ?_) rfl
      unfold Decoder.parse
      exact Outcome.bind_eq_ok.2 ⟨_, Outcome.ofPanicky_eq_ok.2 (evalBool_of hs hd), Outcome.bind_eq_ok.2 ⟨_, h6, rfl⟩⟩
  | _, _, _, _, _, _, .maybe_none hd, _, _, _, _, hp, hg, hn, hc, hs, hk, hf, he => by
    cases hc
    refine .mk (N := 0) (w := .new _) (fun n _ => ?_) rfl rfl
    unfold Decoder.parse
    exact Outcome.bind_eq_ok.2 ⟨_, Outcome.ofPanicky_eq_ok.2 (evalBool_of hs hd), rfl⟩
  | _, _, _, _, _, _, .map h hd, _, _, _, _, hp, hg, hn, hc, hs, hk, hf, he => by
    simp only [Format.Regular, Format.Plain, Format.Each] at hp hg
    cases hc with
    | map hc =>
      refine (h.found S hp hg.2 hn hc hs hk (hf.mono (fun _ => .map) (by
        obtain ⟨rest, hr⟩ := hf.prefix
        exact (h.covered S.plain S.regular hp hg.2).at hr he)) he).wrap (fun r => (.mapped r.1 _, r.2)) (fun n w h6 h7 _ => ?_) rfl
      unfold Decoder.parse
      exact Outcome.bind_eq_ok.2 ⟨_, h6, Outcome.bind_eq_ok.2 ⟨_, Outcome.ofPanicky_eq_ok.2
        (by rw [hs.evalLambda, h7]; exact hd), rfl⟩⟩
  | _, _, _, _, _, _, .where_ h hd, _, _, _, _, hp, hg, hn, hc, hs, hk, hf, he => by
    simp only [Format.Regular, Format.Plain, Format.Each] at hp hg
    cases hc with
    | where_ hc =>
      refine (h.found S hp hg.2 hn hc hs hk (hf.mono (fun _ => .where_) (by
        obtain ⟨rest, hr⟩ := hf.prefix
        exact (h.covered S.plain S.regular hp hg.2).at hr he)) he).wrap id (fun n w h6 h7 _ => ?_) rfl
      unfold Decoder.parse
      refine Outcome.bind_eq_ok.2 ⟨_, h6, Outcome.bind_eq_ok.2 ⟨.new w.value, Outcome.bind_eq_ok.2 ⟨true, Outcome.ofPanicky_eq_ok.2
        (lambdaBool_of hs (by rw [h7]; exact hd)), rfl⟩, ?_⟩⟩
      rfl
  | _, _, _, _, _, _, .where_lenient (e := e) h hd, _, _, _, _, hp, hg, hn, hc, hs, hk, hf, he => by
    simp only [Format.Regular, Format.Plain, Format.Each] at hp hg
    cases hc with
    | where_ hc =>
      obtain ⟨N, w, h1, h2, h3⟩ := h.found S hp hg.2 hn hc hs (hk.imp id (by omega)) (hf.mono (fun _ => .where_) (by
        obtain ⟨rest, hr⟩ := hf.prefix
        exact (h.covered S.plain S.regular hp hg.2).at hr he)) he
      refine .mk (N := N) (w := ⟨w.value, .badWhere e w.value.1 :: w.errs⟩) (fun n hn => ?_) h2 (by simp [h3])
      unfold Decoder.parse
      refine Outcome.bind_eq_ok.2 ⟨_, h1 n hn, Outcome.bind_eq_ok.2 ⟨.withErr w.value (.badWhere e w.value.1), Outcome.bind_eq_ok.2 ⟨false, Outcome.ofPanicky_eq_ok.2
        (lambdaBool_of hs (by rw [h2]; exact hd)), rfl⟩, ?_⟩⟩
      rfl
  | _, _, _, _, _, _, .compute hd, _, _, _, _, hp, hg, hn, hc, hs, hk, hf, he => by
    cases hc
    refine .mk (N := 0) (w := .new _) (fun n _ => ?_) rfl rfl
    unfold Decoder.parse
    exact Outcome.bind_eq_ok.2 ⟨_, Outcome.ofPanicky_eq_ok.2 (by rw [hs.evalValue]; exact hd), rfl⟩
  | _, _, _, _, _, _, .let_ hd h, _, _, _, _, hp, hg, hn, hc, hs, hk, hf, he => by
    simp only [Format.Regular, Format.Plain, Format.Each] at hp hg
    cases hc with
    | let_ hc =>
      refine (h.found S hp hg.2 hn hc (.single hs) hk (hf.mono (fun _ => .let_) (by
        obtain ⟨rest, hr⟩ := hf.prefix
        exact (h.covered S.plain S.regular hp hg.2).at hr he)) he).wrap id (fun n w h6 h7 _ => ?_) rfl
      unfold Decoder.parse
      exact Outcome.bind_eq_ok.2 ⟨_, Outcome.ofPanicky_eq_ok.2 (by rw [hs.evalValue]; exact hd), h6⟩
  | _, _, _, _, _, _, .match_ hh hi hb hno h, _, _, _, _, hp, hg, hn, hc, hs, hk, hf, he => by
    simp only [Format.Regular, Format.Plain, Format.Each] at hp hg
    cases hc with
    | match_ hc =>
      have hmem := List.mem_of_getElem? hi
      have hp' := hp.2.get _ hmem
      have hg' := EachBranchOf.get hg.2 _ hmem
      obtain ⟨d, h1, h2⟩ := CompilesBranches.at hc hi hb hno
      refine (h.found S hp' hg' hn h1 (hs.withBindings _) hk (hf.mono (fun _ => .match_ hmem) (by
        obtain ⟨rest, hr⟩ := hf.prefix
        exact (h.covered S.plain S.regular hp' hg').at hr he)) he).wrap (fun r => (.branch _ r.1, r.2)) (fun n w h6 h7 _ => ?_) rfl
      unfold Decoder.parse
      refine Outcome.bind_eq_ok.2 ⟨_, Outcome.ofPanicky_eq_ok.2 (by rw [hs.eval]; exact hh), ?_⟩
      rw [h2]
      exact Outcome.bind_eq_ok.2 ⟨_, h6, by rw [Nat.zero_add]⟩
  | _, _, _, _, _, _, .pos, _, _, _, _, hp, hg, hn, hc, hs, hk, hf, he => by
    cases hc
    refine .mk (N := 0) (w := .new _) (fun n _ => ?_) rfl rfl
    unfold Decoder.parse
    rfl
  | _, _, _, _, _, _, .decodeBytes (bytes := bs) hd hb h hlen, _, _, _, _, hp, hg, hn, hc, hs, hk, hf, he => by
    simp only [Format.Regular, Format.Each, Format.RegularHere] at hg
    cases hc with
    | decodeBytes hc =>
      have ih := fun u => h.found S (next := .empty) (u := u) hg.1.1 hg.2 trivial hc hs hk
      obtain ⟨a, r, g1, g2, g3⟩ := h.covered S.plain S.regular hg.1.1 hg.2
      simp only [List.drop_zero, Nat.zero_add] at g1 g2
      rw [g2] at hlen ih
      have hr0 : r = [] := by
        have := congrArg List.length g1
        simp only [List.length_append] at this
        simp only [] at hlen
        exact List.length_eq_zero_iff.1 (by omega)
      subst hr0
      rw [List.append_nil] at g1
      subst g1
      refine (ih bs (Fits.whole (F := Follow m .empty) g3 rfl) (by simp)).wrap (fun r => (r.1, _)) (fun n w h6 h7 _ => ?_) rfl
      unfold Decoder.parse
      refine Outcome.bind_eq_ok.2 ⟨_, Outcome.ofPanicky_eq_ok.2 (evalItems_of hs hd), Outcome.bind_eq_ok.2 ⟨_,
        Outcome.ofPanicky_eq_ok.2 (bytesOf_of hb), Outcome.bind_eq_ok.2 ⟨_, h6, ?_⟩⟩⟩
      unfold WithErr.joinO
      rw [h7]
      simp only [((ReadCtxt.C06_readByte (⟨bs, bs.length⟩ : ReadCtxt)).2).2 (by simp)]
      simp [WithErr.new, WithErr.map, h7]
  | _, _, c0, _, _, _, .decodeBytes_trailing (f := f) (bytes := bs) (v := v) hd hb h hlen, _, _, _, _, hp, hg, hn, hc, hs, hk, hf, he => by
    simp only [Format.Regular, Format.Each, Format.RegularHere] at hg
    cases hc with
    | decodeBytes hc =>
      have htr : tr = true := hk.resolve_right (by omega)
      have ih := fun u => h.found S (next := .empty) (u := u) hg.1.1 hg.2 trivial hc hs (.inl htr)
      obtain ⟨a, r, g1, g2, g3⟩ := h.covered S.plain S.regular hg.1.1 hg.2
      simp only [List.drop_zero, Nat.zero_add] at g1 g2
      rw [g2] at hlen ih
      have hfit : Fits (Word m f) (Follow m .empty) (a ++ r) a := by
        have := Fits.free (F := Follow m .empty) (rest := r) (hg.1.2 htr) g3 (w := []) rfl
        simpa using this
      obtain ⟨N, w, h1, h2, h3⟩ := ih a (by simp only [List.drop_zero]; rw [g1]; exact hfit) (by simp)
      have hlen' : a.length < bs.length := hlen
      have hb' : (⟨bs, a.length⟩ : ReadCtxt).readByte = some (bs[a.length], ⟨bs, a.length + 1⟩) :=
        ((ReadCtxt.C06_readByte _).1 _ _).2 ⟨List.getElem?_eq_getElem hlen', rfl⟩
      refine .mk (N := N) (w := ⟨(v, c0), .trailing bs[a.length] a.length :: w.errs⟩) (fun n hn => ?_) rfl (by simp [h3])
      unfold Decoder.parse
      refine Outcome.bind_eq_ok.2 ⟨_, Outcome.ofPanicky_eq_ok.2 (evalItems_of hs hd), Outcome.bind_eq_ok.2 ⟨_,
        Outcome.ofPanicky_eq_ok.2 (bytesOf_of hb), Outcome.bind_eq_ok.2 ⟨_, h1 n hn, ?_⟩⟩⟩
      unfold WithErr.joinO
      rw [h2]
      simp only [hb']
      rfl
  | _, _, _, _, _, _, .letFormat (f := f) (g := g) (x := x) (v := v) h1 h2, next, _, _, _, hp, hg, hn, hc, hs, hk, hf, he => by
    simp only [Format.Regular, Format.Plain, Format.Each] at hp hg
    cases hc with
    | letFormat hc1 hc2 =>
      obtain ⟨a, b, g1, g2, g3, g4, -⟩ := hf.split (A := Word m f) (B := Word m g) (F' := Follow m (.cat g next))
        (by rintro v ⟨a, b, rfl, ha, hb⟩; exact .letFormat ha hb) (h1.covered S.plain S.regular hp.1 hg.2.1)
        (h2.covered S.plain S.regular hp.2 hg.2.2) he (fun _ => Iff.rfl)
      obtain ⟨N, w, h3, h4, h5⟩ := h1.found S (next := .cat g next) hp.1 hg.2.1 ⟨hp.2, hn⟩ hc1 hs (hk.imp id (by omega)) g1 g2
      obtain ⟨N', w', h6, h7, h8⟩ := h2.found S hp.2 hg.2.2 hn hc2 (.single (x := x) (v := v) hs) (hk.imp id (by omega)) g3 g4
      refine .mk (N := max N N') (w := ⟨w'.value, w'.errs ++ w.errs⟩) (fun n hn => ?_) h7 (by simp [h5, h8]; omega)
      unfold Decoder.parse
      refine Outcome.bind_eq_ok.2 ⟨_, h3 n (by omega), Outcome.bind_eq_ok.2 ⟨w', ?_, rfl⟩⟩
      rw [h4]
      exact h6 n (by omega)
  | _, _, _, _, _, _, .monadSeq (f := f) (g := g) h1 h2, next, _, _, _, hp, hg, hn, hc, hs, hk, hf, he => by
    simp only [Format.Regular, Format.Plain, Format.Each] at hp hg
    cases hc with
    | monadSeq hc1 hc2 =>
      obtain ⟨a, b, g1, g2, g3, g4, -⟩ := hf.split (A := Word m f) (B := Word m g) (F' := Follow m (.cat g next))
        (by rintro v ⟨a, b, rfl, ha, hb⟩; exact .monadSeq ha hb) (h1.covered S.plain S.regular hp.1 hg.2.1)
        (h2.covered S.plain S.regular hp.2 hg.2.2) he (fun _ => Iff.rfl)
      obtain ⟨N, w, h3, h4, h5⟩ := h1.found S (next := .cat g next) hp.1 hg.2.1 ⟨hp.2, hn⟩ hc1 hs (hk.imp id (by omega)) g1 g2
      obtain ⟨N', w', h6, h7, h8⟩ := h2.found S hp.2 hg.2.2 hn hc2 hs (hk.imp id (by omega)) g3 g4
      refine .mk (N := max N N') (w := ⟨w'.value, w'.errs ++ w.errs⟩) (fun n hn => ?_) h7 (by simp [h5, h8]; omega)
      unfold Decoder.parse
      refine Outcome.bind_eq_ok.2 ⟨_, h3 n (by omega), Outcome.bind_eq_ok.2 ⟨w', ?_, rfl⟩⟩
      rw [h4]
      exact h6 n (by omega)
  | _, _, _, _, _, _, .hint h, _, _, _, _, hp, hg, hn, hc, hs, hk, hf, he => by
    simp only [Format.Regular, Format.Plain, Format.Each] at hp hg
    cases hc with
    | hint hc =>
      exact h.found S hp hg.2 hn hc hs hk (hf.mono (fun _ => .hint) (by
        obtain ⟨rest, hr⟩ := hf.prefix
        exact (h.covered S.plain S.regular hp hg.2).at hr he)) he
  | _, _, _, _, _, _, .liftedNone, _, _, _, _, hp, hg, hn, hc, hs, hk, hf, he => by
    cases hc
    refine .mk (N := 0) (w := .new _) (fun n _ => ?_) rfl rfl
    unfold Decoder.parse
    rfl
  | _, _, _, _, _, _, .liftedSome h, _, _, _, _, hp, hg, hn, hc, hs, hk, hf, he => by
    simp only [Format.Regular, Format.Plain, Format.Each] at hp hg
    cases hc with
    | liftedSome hc =>
      refine (h.found S hp hg.2 hn hc hs hk (hf.mono (fun _ => .liftedSome) (by
        obtain ⟨rest, hr⟩ := hf.prefix
        exact (h.covered S.plain S.regular hp hg.2).at hr he)) he).wrap (fun r => (.optSome r.1, r.2)) (fun n w h6 _ _ => ?_) rfl
      unfold Decoder.parse
      exact Outcome.bind_eq_ok.2 ⟨_, h6, rfl⟩
  | _, _, _, _, _, _, .letView h, _, _, _, _, hp, hg, hn, hc, hs, hk, hf, he => by
    simp only [Format.Regular, Format.Plain, Format.Each] at hp hg
    cases hc with
    | letView hc =>
      refine (h.found S hp hg.2 hn hc (.view hs) hk (hf.mono (fun _ => .letView) (by
        obtain ⟨rest, hr⟩ := hf.prefix
        exact (h.covered S.plain S.regular hp hg.2).at hr he)) he).wrap id (fun n w h6 _ _ => ?_) rfl
      unfold Decoder.parse
      exact h6
  | _, _, _, _, _, _, .captureBytes hv hd hl, _, _, _, _, hp, hg, hn, hc, hs, hk, hf, he => by
    simp only [Format.Regular, Format.Each, Format.RegularHere] at hg
    obtain ⟨x, rfl⟩ := hg
    cases hc
    refine .mk (N := 0) (w := .new _) (fun n _ => ?_) rfl rfl
    unfold Decoder.parse
    exact Outcome.bind_eq_ok.2 ⟨_, Outcome.ofPanicky_eq_ok.2 (evalUsize_of hs hd), Outcome.bind_eq_ok.2 ⟨_,
      evalView_of hs hv, Outcome.bind_eq_ok.2 ⟨_, captureLoop_of hl, rfl⟩⟩⟩
  | _, _, _, _, _, _, .readArray _ _ _ _, _, _, _, _, hp, hg, hn, hc, hs, hk, hf, he => by
    simp only [Format.Regular, Format.Each, Format.RegularHere] at hg
  | _, _, _, _, _, _, .reifyView hv, _, _, _, _, hp, hg, hn, hc, hs, hk, hf, he => by
    simp only [Format.Regular, Format.Each, Format.RegularHere] at hg
    obtain ⟨x, rfl⟩ := hg
    cases hc
    refine .mk (N := 0) (w := .new _) (fun n _ => ?_) rfl rfl
    unfold Decoder.parse
    exact Outcome.bind_eq_ok.2 ⟨_, evalView_of hs hv, rfl⟩
  | _, _, _, _, _, _, .parseFromView (f := f) hv h, _, _, _, _, hp, hg, hn, hc, hs, hk, hf, he => by
    simp only [Format.Regular, Format.Each, Format.RegularHere] at hg
    obtain ⟨⟨⟨x, rfl⟩, hp', hfree⟩, hg'⟩ := hg
    cases hc with
    | parseFromView hc =>
      obtain ⟨a, r, g1, g2, g3⟩ := h.covered S.plain S.regular hp' hg'
      have hfit : Fits (Word m f) (Follow m .empty) (a ++ r) a := by
        have := Fits.free (F := Follow m .empty) (rest := r) hfree g3 (w := []) rfl
        simpa using this
      refine (h.found S (next := .empty) hp' hg' trivial hc hs hk (by rw [g1]; exact hfit) g2).wrap
        (fun r => (r.1, _)) (fun n w h6 _ _ => ?_) rfl
      unfold Decoder.parse
      exact Outcome.bind_eq_ok.2 ⟨_, evalView_of hs hv, Outcome.bind_eq_ok.2 ⟨_, h6, rfl⟩⟩
  | _, _, _, _, _, _, .enforce h, _, _, _, _, hp, hg, hn, hc, hs, hk, hf, he => by
    simp only [Format.Regular, Format.Plain, Format.Each] at hp hg
    cases hc with
    | enforce hc =>
      refine (h.found S hp hg.2 hn hc hs hk (hf.mono (fun _ => .enforce) (by
        obtain ⟨rest, hr⟩ := hf.prefix
        exact (h.covered S.plain S.regular hp hg.2).at hr he)) he).wrap id (fun n w h6 _ h8 => ?_) rfl
      unfold Decoder.parse
      refine Outcome.bind_eq_ok.2 ⟨_, h6, ?_⟩
      obtain ⟨wv, we⟩ := w
      cases List.length_eq_zero_iff.1 h8
      rfl
  | _, _, _, _, _, _, .permit h, _, _, _, _, hp, hg, hn, hc, hs, hk, hf, he => by
    simp only [Format.Regular, Format.Plain, Format.Each] at hp hg
    cases hc with
    | permit hc =>
      refine (h.found S hp hg.2 hn hc hs hk (hf.mono (fun _ => .permit) (by
        obtain ⟨rest, hr⟩ := hf.prefix
        exact (h.covered S.plain S.regular hp hg.2).at hr he)) he).wrap (fun r => (.permitOk r.1, r.2)) (fun n w h6 _ _ => ?_) rfl
      unfold Decoder.parse
      simp only [h6]
  | _, _, _, _, _, _, .permit_fallback h _, _, _, _, _, hp, hg, hn, hc, hs, hk, hf, he => h.elim
  | _, _, _, _, _, _, .align .., _, _, _, _, hp, hg, hn, hc, hs, hk, hf, he => by simp only [Format.Plain] at hp
  | _, _, _, _, _, _, .repeatUntilLast .., _, _, _, _, hp, hg, hn, hc, hs, hk, hf, he => by simp only [Format.Plain] at hp
  | _, _, _, _, _, _, .repeatUntilSeq .., _, _, _, _, hp, hg, hn, hc, hs, hk, hf, he => by simp only [Format.Plain] at hp
  | _, _, _, _, _, _, .accumUntil .., _, _, _, _, hp, hg, hn, hc, hs, hk, hf, he => by simp only [Format.Plain] at hp
  | _, _, _, _, _, _, .forEach .., _, _, _, _, hp, hg, hn, hc, hs, hk, hf, he => by simp only [Format.Plain] at hp
  | _, _, _, _, _, _, .peek .., _, _, _, _, hp, hg, hn, hc, hs, hk, hf, he => by simp only [Format.Plain] at hp
  | _, _, _, _, _, _, .peekNot h, _, _, _, _, hp, hg, hn, hc, hs, hk, hf, he => h.elim
  | _, _, _, _, _, _, .slice .., _, _, _, _, hp, hg, hn, hc, hs, hk, hf, he => by simp only [Format.Plain] at hp
  | _, _, _, _, _, _, .bits .., _, _, _, _, hp, hg, hn, hc, hs, hk, hf, he => by simp only [Format.Plain] at hp
  | _, _, _, _, _, _, .withRelativeOffset .., _, _, _, _, hp, hg, hn, hc, hs, hk, hf, he => by simp only [Format.Plain] at hp
  | _, _, _, _, _, _, .dynamic .., _, _, _, _, hp, hg, hn, hc, hs, hk, hf, he => by simp only [Format.Plain] at hp
  | _, _, _, _, _, _, .apply .., _, _, _, _, hp, hg, hn, hc, hs, hk, hf, he => by simp only [Format.Plain] at hp
  | _, _, _, _, _, _, .skipRemainder, _, _, _, _, hp, hg, hn, hc, hs, hk, hf, he => by simp only [Format.Plain] at hp
  | _, _, _, _, _, _, .phantom, _, _, _, _, hp, hg, hn, hc, hs, hk, hf, he => by simp only [Format.Plain] at hp

theorem Grammar.ParsesFields.found (S : Setup m E o tr M env) :
    ∀ {fs s c vs c' k}, ParsesFields m never fs s c vs c' k → ∀ {next ds s' u},
      Format.FieldsPlain m E m.items.length next.isDone fs → Format.EachOf (Format.RegularHere m E o tr) fs →
      next.Plain m E → CompilesFields (.of m o M) fs next ds → ScopeRel R s s' → (tr = true ∨ k = 0) →
      Fits (Words m fs) (Follow m next) (c.input.drop c.offset) u → c' = ⟨c.input, c.offset + u.length⟩ →
      ∀ acc : Decoder.Acc, acc.value.2 = c →
        ∃ N acc', (∀ n, N ≤ n → Decoder.foldItems (fun d c => Decoder.parse env n d s' c) ds acc = .ok acc') ∧
          Adds acc acc' vs c' k
  | _, _, _, _, _, _, .fnil, _, _, _, _, hp, hg, hn, hc, hs, hk, hf, he, acc, ha => by
    cases hc
    exact ⟨0, acc, fun n _ => rfl, by simp [← ha], by simp⟩
  | _, _, _, _, _, _, .fcons (f := f) (fs := fs) h1 h2, next, _, _, _, hp, hg, hn, hc, hs, hk, hf, he, acc, ha => by
    simp only [Format.FieldsPlain, Format.EachOf] at hp hg
    cases hc with
    | fcons hc1 hc2 =>
      obtain ⟨a, b, g1, g2, g3, g4, -⟩ := hf.split (A := Word m f) (B := Words m fs) (F' := Follow m (.sequence fs next))
        (by rintro v ⟨a, b, rfl, ha, hb⟩; exact .cons ha hb) (h1.covered S.plain S.regular hp.1 hg.1)
        (h2.covered S.plain S.regular hp.2 hg.2) he (fun _ => Iff.rfl)
      obtain ⟨N, w, h3, h4, h5⟩ := h1.found S (next := .sequence fs next) hp.1 hg.1 ⟨hp.2, hn⟩ hc1 hs (hk.imp id (by omega)) g1 g2
      obtain ⟨N', acc', h6, h7⟩ := h2.found S hp.2 hg.2 hn hc2 hs (hk.imp id (by omega)) g3 g4 (Decoder.push acc w)
        (by simp [Decoder.push, h4])
      refine ⟨max N N', acc', fun n hn => ?_, h7.cons h4 h5⟩
      simp only [Decoder.foldItems]
      exact Outcome.bind_eq_ok.2 ⟨w, by rw [ha]; exact h3 n (by omega), h6 n (by omega)⟩

theorem Grammar.ParsesMany.found (S : Setup m E o tr M env) :
    ∀ {f s c vs c' k}, ParsesMany m never f s c vs c' k → ∀ {next d s'} {J : ReadCtxt → Nat → Prop},
      f.Plain m E m.items.length false → f.Regular m E o tr → next.Plain m E →
      Compiles (.of m o M) f (.repeat_ f next) d → ScopeRel R s s' → (tr = true ∨ k = 0) →
      (∀ c c1 n, J c (n + 1) → Covered c c1 (Word m f) → Covered c1 c' (Power m f n) →
        (∃ a, Fits (Word m f) (Follow m (.repeat_ f next)) (c.input.drop c.offset) a ∧ c1 = ⟨c.input, c.offset + a.length⟩) ∧
          J c1 n) → J c vs.length → Steps env d s' J c vs c' k
  | _, _, _, _, _, _, .mnil, _, _, _, _, hp, hg, hn, hc, hs, hk, hJ, hj => .nil hj
  | _, _, _, _, _, _, .mcons (f := f) h1 h2, next, _, _, _, hp, hg, hn, hc, hs, hk, hJ, hj => by
    obtain ⟨⟨a, g1, g2⟩, g3⟩ := hJ _ _ _ hj (h1.covered S.plain S.regular hp hg) (h2.covered S.plain S.regular hp hg)
    exact .cons hj (h1.found S (next := .repeat_ f next) hp hg ⟨hp, hn⟩ hc hs (hk.imp id (by omega)) g1 g2)
      (h2.found S hp hg hn hc hs (hk.imp id (by omega)) hJ g3)
end

end
end Doodle
