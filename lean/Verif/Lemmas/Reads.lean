import Verif.Spec.Safe
import Verif.Spec.Grammar
import Verif.Spec.Words
import Verif.Spec.Helper

/-! Formats described by a relation between the bytes they cover and the value they stand for. -/

namespace Doodle
namespace Grammar

/-- The derivations of the format are those of the bytes and values that `L` relates; they tolerate nothing. -/
def Reads (m : Module) (f : Format) (L : Scope Format → List UInt8 → Value → Prop) : Prop :=
  ∀ rej s c v c' n, Parses m rej f s c v c' n ↔ ∃ u rest, c.input.drop c.offset = u ++ rest ∧ L s u v ∧
    c' = ⟨c.input, c.offset + u.length⟩ ∧ n = 0

/-- the same for formats one after the other -/
def ReadsAll (m : Module) (fs : List Format) (L : Scope Format → List UInt8 → List Value → Prop) : Prop :=
  ∀ rej s c vs c' n, ParsesFields m rej fs s c vs c' n ↔ ∃ u rest, c.input.drop c.offset = u ++ rest ∧ L s u vs ∧
    c' = ⟨c.input, c.offset + u.length⟩ ∧ n = 0

/-- The words of the format. -/
def Spells (m : Module) (f : Format) (W : List UInt8 → Prop) : Prop := ∀ u, Word m f u ↔ W u

variable {m : Module} {f g : Format} {L L' : Scope Format → List UInt8 → Value → Prop}

theorem Reads.congr (h : Reads m f L) (he : ∀ s u v, L s u v ↔ L' s u v) : Reads m f L' := by
  intro rej s c v c' n
  rw [h rej s c v c' n]
  constructor
  · rintro ⟨u, r, h1, h2, h3⟩; exact ⟨u, r, h1, (he _ _ _).1 h2, h3⟩
  · rintro ⟨u, r, h1, h2, h3⟩; exact ⟨u, r, h1, (he _ _ _).2 h2, h3⟩

theorem drop_step {c : ReadCtxt} {u rest : List UInt8} (h : c.input.drop c.offset = u ++ rest) :
    c.input.drop (c.offset + u.length) = rest := by
  rw [← List.drop_drop, h, List.drop_left]

theorem reads_byte (bs : ByteSet) : Reads m (.byte bs) fun _ u v => ∃ b, u = [b] ∧ bs.contains b = true ∧ v = .u8 b := by
  intro rej s c v c' n
  constructor
  · intro h
    cases h with
    | byte h1 h2 =>
      refine ⟨[_], c.input.drop (c.offset + 1), ?_, ⟨_, rfl, h2, rfl⟩, rfl, rfl⟩
      obtain ⟨hl, hb⟩ := List.getElem?_eq_some_iff.1 h1
      rw [List.drop_eq_getElem_cons hl, hb]; rfl
  · rintro ⟨_, rest, h1, ⟨b, rfl, h2, rfl⟩, rfl, rfl⟩
    refine .byte ?_ h2
    rw [← Nat.add_zero c.offset, ← List.getElem?_drop, h1]; rfl

theorem reads_map {e : Expr} (h : Reads m f L) : Reads m (.map f e) fun s u w => ∃ v x, L s u v ∧ Sends e s v x ∧ w = .mapped v x := by
  intro rej s c w c' n
  constructor
  · intro h'
    cases h' with
    | map h1 h2 =>
      obtain ⟨u, rest, h3, h4, h5⟩ := (h ..).1 h1
      exact ⟨u, rest, h3, ⟨_, _, h4, h2, rfl⟩, h5⟩
  · rintro ⟨u, rest, h3, ⟨v, x, h4, h2, rfl⟩, h5⟩
    exact .map ((h ..).2 ⟨u, rest, h3, h4, h5⟩) h2

/-- a function of the value that does not depend on the scope -/
theorem reads_map_of {e : Expr} {g : List UInt8 → Value} (h : Reads m f L) (he : ∀ s u v, L s u v → Sends e s v (g u)) :
    Reads m (.map f e) fun s u w => ∃ v, L s u v ∧ w = .mapped v (g u) :=
  (reads_map h).congr fun s u w => by
    constructor
    · rintro ⟨v, x, h1, h2, rfl⟩
      have := (he s u v h1).symm.trans h2
      cases this
      exact ⟨v, h1, rfl⟩
    · rintro ⟨v, h1, rfl⟩; exact ⟨v, _, h1, he s u v h1, rfl⟩

theorem reads_union {fs : List Format} {P : Nat → Scope Format → List UInt8 → Value → Prop}
    (h : ∀ i f, fs[i]? = some f → Reads m f (P i)) :
    Reads m (.union fs) fun s u w => ∃ i v, i < fs.length ∧ P i s u v ∧ w = .branch i v := by
  intro rej s c w c' n
  constructor
  · intro h'
    cases h' with
    | union h1 h2 =>
      obtain ⟨u, rest, h3, h4, h5⟩ := (h _ _ h1 ..).1 h2
      exact ⟨u, rest, h3, ⟨_, _, (List.getElem?_eq_some_iff.1 h1).1, h4, rfl⟩, h5⟩
  · rintro ⟨u, rest, h3, ⟨i, v, h1, h4, rfl⟩, h5⟩
    exact .union (List.getElem?_eq_getElem h1) ((h _ _ (List.getElem?_eq_getElem h1) ..).2 ⟨u, rest, h3, h4, h5⟩)

/-- a call of an item without arguments -/
theorem reads_item {l : Nat} (hi : m.items[l]? = some ⟨[], [], f⟩) (h : Reads m f L) :
    Reads m (.itemVar l [] []) fun _ u v => L (.multi [] .empty) u v := by
  intro rej s c w c' n
  constructor
  · intro h'
    cases h' with
    | itemVar h1 h2 h3 h4 =>
      rw [hi] at h1
      cases h1
      cases h2
      cases h3
      exact (h ..).1 h4
  · intro h'
    exact .itemVar hi .nil .nil ((h ..).2 h')

theorem readsAll_nil : ReadsAll m [] fun _ u vs => u = [] ∧ vs = [] := by
  intro rej s c vs c' n
  constructor
  · intro h
    cases h
    exact ⟨[], _, rfl, ⟨rfl, rfl⟩, rfl, rfl⟩
  · rintro ⟨_, rest, h1, ⟨rfl, rfl⟩, rfl, rfl⟩
    exact .fnil

theorem readsAll_cons {fs : List Format} {P : Scope Format → List UInt8 → List Value → Prop} (h : Reads m f L) (hs : ReadsAll m fs P) :
    ReadsAll m (f :: fs) fun s w vs => ∃ u u' v vs', w = u ++ u' ∧ vs = v :: vs' ∧ L s u v ∧ P s u' vs' := by
  intro rej s c vs c' n
  constructor
  · intro h'
    cases h' with
    | fcons h1 h2 =>
      obtain ⟨u, rest, h3, h4, rfl, rfl⟩ := (h ..).1 h1
      obtain ⟨u', rest', h5, h6, rfl, rfl⟩ := (hs ..).1 h2
      dsimp only at h5
      rw [drop_step h3] at h5
      refine ⟨u ++ u', rest', by rw [h3, h5, List.append_assoc], ⟨u, u', _, _, rfl, rfl, h4, h6⟩, ?_, rfl⟩
      rw [List.length_append, Nat.add_assoc]
  · rintro ⟨_, rest, h1, ⟨u, u', v, vs', rfl, rfl, h3, h4⟩, rfl, rfl⟩
    rw [List.append_assoc] at h1
    refine .fcons (k := 0) (k' := 0) ((h ..).2 ⟨u, _, h1, h3, rfl, rfl⟩) ((hs ..).2 ⟨u', rest, drop_step h1, h4, ?_, rfl⟩)
    rw [List.length_append, Nat.add_assoc]

theorem reads_tuple {fs : List Format} {P : Scope Format → List UInt8 → List Value → Prop} (hs : ReadsAll m fs P) :
    Reads m (.tuple fs) fun s u v => ∃ vs, P s u vs ∧ v = .tuple vs := by
  intro rej s c v c' n
  constructor
  · intro h'
    cases h' with
    | tuple h1 =>
      obtain ⟨u, rest, h3, h4, h5⟩ := (hs ..).1 h1
      exact ⟨u, rest, h3, ⟨_, h4, rfl⟩, h5⟩
  · rintro ⟨u, rest, h3, ⟨vs, h4, rfl⟩, h5⟩
    exact .tuple ((hs ..).2 ⟨u, rest, h3, h4, h5⟩)

/-- the bytes are cut into pieces, one for each value -/
inductive Pieces (P : List UInt8 → Value → Prop) : List UInt8 → List Value → Prop
  | nil : Pieces P [] []
  | cons {u u' v vs} : P u v → Pieces P u' vs → Pieces P (u ++ u') (v :: vs)

theorem many_pieces (h : Reads m f L) {rej s c vs c' n} : ParsesMany m rej f s c vs c' n ↔
    ∃ u rest, c.input.drop c.offset = u ++ rest ∧ Pieces (L s) u vs ∧ c' = ⟨c.input, c.offset + u.length⟩ ∧ n = 0 := by
  constructor
  · intro h'
    induction vs generalizing c n with
    | nil =>
      cases h'
      exact ⟨[], _, rfl, .nil, rfl, rfl⟩
    | cons v vs ih =>
      cases h' with
      | mcons h1 h2 =>
        obtain ⟨u, rest, h3, h4, rfl, rfl⟩ := (h ..).1 h1
        obtain ⟨u', rest', h5, h6, rfl, rfl⟩ := ih h2
        dsimp only at h5
        rw [drop_step h3] at h5
        refine ⟨u ++ u', rest', by rw [h3, h5, List.append_assoc], .cons h4 h6, ?_, rfl⟩
        rw [List.length_append, Nat.add_assoc]
  · rintro ⟨u, rest, h1, h2, rfl, rfl⟩
    induction h2 generalizing c with
    | nil => exact .mnil
    | cons h3 h4 ih =>
      rw [List.append_assoc] at h1
      have := ih (c := ⟨c.input, c.offset + _⟩) (drop_step h1)
      refine .mcons (k := 0) (k' := 0) ((h ..).2 ⟨_, _, h1, h3, rfl, rfl⟩) ?_
      rw [List.length_append, ← Nat.add_assoc]
      exact this

theorem reads_repeat (h : Reads m f L) : Reads m (.repeat_ f) fun s u v => ∃ vs, Pieces (L s) u vs ∧ v = .seq (.strict vs) := by
  intro rej s c v c' n
  constructor
  · intro h'
    cases h' with
    | repeat_ h1 =>
      obtain ⟨u, rest, h3, h4, h5⟩ := (many_pieces h).1 h1
      exact ⟨u, rest, h3, ⟨_, h4, rfl⟩, h5⟩
  · rintro ⟨u, rest, h3, ⟨vs, h4, rfl⟩, h5⟩
    exact .repeat_ ((many_pieces h).2 ⟨u, rest, h3, h4, h5⟩)

theorem reads_hint (h : Reads m f L) : Reads m (.hint f) L := by
  intro rej s c v c' n
  constructor
  · intro h'; cases h' with | hint h1 => exact (h ..).1 h1
  · intro h'; exact .hint ((h ..).2 h')

theorem reads_variant {l : String} (h : Reads m f L) : Reads m (.variant l f) fun s u w => ∃ v, L s u v ∧ w = .variant l v := by
  intro rej s c w c' n
  constructor
  · intro h'
    cases h' with
    | variant h1 =>
      obtain ⟨u, rest, h3, h4, h5⟩ := (h ..).1 h1
      exact ⟨u, rest, h3, ⟨_, h4, rfl⟩, h5⟩
  · rintro ⟨u, rest, h3, ⟨v, h4, rfl⟩, h5⟩
    exact .variant ((h ..).2 ⟨u, rest, h3, h4, h5⟩)

theorem reads_compute {e : Expr} : Reads m (.compute e) fun s u v => u = [] ∧ Denotes e s v := by
  intro rej s c v c' n
  constructor
  · intro h
    cases h with
    | compute h => exact ⟨[], _, rfl, ⟨rfl, h⟩, rfl, rfl⟩
  · rintro ⟨_, rest, h1, ⟨rfl, h⟩, rfl, rfl⟩
    exact .compute h

theorem reads_letFormat {x : String} (h : Reads m f L) (h' : Reads m g L') :
    Reads m (.letFormat f x g) fun s w v => ∃ u u' z, w = u ++ u' ∧ L s u z ∧ L' (.single x z s) u' v := by
  intro rej s c v c' n
  constructor
  · intro hp
    cases hp with
    | letFormat h1 h2 =>
      obtain ⟨u, rest, h3, h4, rfl, rfl⟩ := (h ..).1 h1
      obtain ⟨u', rest', h5, h6, rfl, rfl⟩ := (h' ..).1 h2
      dsimp only at h5
      rw [drop_step h3] at h5
      refine ⟨u ++ u', rest', by rw [h3, h5, List.append_assoc], ⟨u, u', _, rfl, h4, h6⟩, ?_, rfl⟩
      rw [List.length_append, Nat.add_assoc]
  · rintro ⟨_, rest, h1, ⟨u, u', z, rfl, h3, h4⟩, rfl, rfl⟩
    rw [List.append_assoc] at h1
    refine .letFormat (k := 0) (k' := 0) ((h ..).2 ⟨u, _, h1, h3, rfl, rfl⟩) ((h' ..).2 ⟨u', rest, drop_step h1, h4, ?_, rfl⟩)
    rw [List.length_append, Nat.add_assoc]

theorem reads_monadSeq (h : Reads m f L) (h' : Reads m g L') :
    Reads m (.monadSeq f g) fun s w v => ∃ u u' z, w = u ++ u' ∧ L s u z ∧ L' s u' v := by
  intro rej s c v c' n
  constructor
  · intro hp
    cases hp with
    | monadSeq h1 h2 =>
      obtain ⟨u, rest, h3, h4, rfl, rfl⟩ := (h ..).1 h1
      obtain ⟨u', rest', h5, h6, rfl, rfl⟩ := (h' ..).1 h2
      dsimp only at h5
      rw [drop_step h3] at h5
      refine ⟨u ++ u', rest', by rw [h3, h5, List.append_assoc], ⟨u, u', _, rfl, h4, h6⟩, ?_, rfl⟩
      rw [List.length_append, Nat.add_assoc]
  · rintro ⟨_, rest, h1, ⟨u, u', z, rfl, h3, h4⟩, rfl, rfl⟩
    rw [List.append_assoc] at h1
    refine .monadSeq (k := 0) (k' := 0) ((h ..).2 ⟨u, _, h1, h3, rfl, rfl⟩) ((h' ..).2 ⟨u', rest, drop_step h1, h4, ?_, rfl⟩)
    rw [List.length_append, Nat.add_assoc]

theorem reads_repeatCount {e : Expr} (h : Reads m f L) :
    Reads m (.repeatCount e f) fun s u v => ∃ n vs, DenotesNat e s n ∧ Pieces (L s) u vs ∧ vs.length = n ∧ v = .seq (.strict vs) := by
  intro rej s c v c' n
  constructor
  · intro h'
    cases h' with
    | repeatCount h0 h1 h2 =>
      obtain ⟨u, rest, h3, h4, h5⟩ := (many_pieces h).1 h1
      exact ⟨u, rest, h3, ⟨_, _, h0, h4, h2, rfl⟩, h5⟩
  · rintro ⟨u, rest, h3, ⟨n, vs, h0, h4, h2, rfl⟩, h5⟩
    exact .repeatCount h0 ((many_pieces h).2 ⟨u, rest, h3, h4, h5⟩) h2

/-! ### words -/

theorem reads_repeat1 (h : Reads m f L) : Reads m (.repeat1 f) fun s u v => ∃ vs, Pieces (L s) u vs ∧ vs ≠ [] ∧ v = .seq (.strict vs) := by
  intro rej s c v c' n
  constructor
  · intro h'
    cases h' with
    | repeat1 h1 h2 =>
      obtain ⟨u, rest, h3, h4, h5⟩ := (many_pieces h).1 h1
      exact ⟨u, rest, h3, ⟨_, h4, h2, rfl⟩, h5⟩
  · rintro ⟨u, rest, h3, ⟨vs, h4, h2, rfl⟩, h5⟩
    exact .repeat1 ((many_pieces h).2 ⟨u, rest, h3, h4, h5⟩) h2

theorem reads_repeatBetween {x y : Expr} (h : Reads m f L) :
    Reads m (.repeatBetween x y f) fun s u v => ∃ lo hi vs, DenotesNat x s lo ∧ DenotesNat y s hi ∧ Pieces (L s) u vs ∧
      lo ≤ vs.length ∧ vs.length ≤ hi ∧ v = .seq (.strict vs) := by
  intro rej s c v c' n
  constructor
  · intro h'
    cases h' with
    | repeatBetween h1 h2 h0 h3 h4 =>
      obtain ⟨u, rest, h5, h6, h7⟩ := (many_pieces h).1 h0
      exact ⟨u, rest, h5, ⟨_, _, _, h1, h2, h6, h3, h4, rfl⟩, h7⟩
  · rintro ⟨u, rest, h5, ⟨lo, hi, vs, h1, h2, h6, h3, h4, rfl⟩, h7⟩
    exact .repeatBetween h1 h2 ((many_pieces h).2 ⟨u, rest, h5, h6, h7⟩) h3 h4

/-- pieces that are made from the elements of a list -/
theorem pieces_made {α : Type} {P : α → Prop} {enc : α → List UInt8} {mk : α → Value} {u : List UInt8} {vs : List Value} :
    Pieces (fun u v => ∃ a, P a ∧ u = enc a ∧ v = mk a) u vs ↔ ∃ as : List α, (∀ a ∈ as, P a) ∧ u = as.flatMap enc ∧ vs = as.map mk := by
  constructor
  · intro h
    induction h with
    | nil => exact ⟨[], by simp, rfl, rfl⟩
    | cons h1 _ ih =>
      obtain ⟨as, h2, rfl, rfl⟩ := ih
      obtain ⟨a, h3, rfl, rfl⟩ := h1
      refine ⟨a :: as, ?_, rfl, rfl⟩
      intro x hx
      rcases List.mem_cons.1 hx with rfl | hx
      · exact h3
      · exact h2 x hx
  · rintro ⟨as, h, rfl, rfl⟩
    induction as with
    | nil => exact .nil
    | cons a as ih => exact .cons ⟨a, h a (.head _), rfl, rfl⟩ (ih fun x hx => h x (.tail _ hx))

/-- equal pieces without bytes, or of one byte each -/
theorem pieces_same {u0 u : List UInt8} {v0 : Value} {vs : List Value} :
    Pieces (fun u v => u = u0 ∧ v = v0) u vs ↔ u = (List.replicate vs.length u0).flatten ∧ vs = List.replicate vs.length v0 := by
  constructor
  · intro h
    induction h with
    | nil => exact ⟨rfl, rfl⟩
    | cons h1 _ ih =>
      obtain ⟨rfl, rfl⟩ := h1
      refine ⟨?_, ?_⟩
      · rw [List.length_cons, List.replicate_succ, List.flatten_cons, ← ih.1]
      · rw [List.length_cons, List.replicate_succ, ← ih.2]
  · rintro ⟨h1, h2⟩
    rw [h1, h2, List.length_replicate]
    generalize vs.length = n
    induction n with
    | zero => exact .nil
    | succ n ih => rw [List.replicate_succ, List.replicate_succ, List.flatten_cons]; exact .cons ⟨rfl, rfl⟩ ih

theorem spells_hint {W : List UInt8 → Prop} (h : Spells m f W) : Spells m (.hint f) W := by
  intro u
  constructor
  · intro h'; cases h' with | hint h' => exact (h u).1 h'
  · intro h'; exact .hint ((h u).2 h')

theorem spells_variant {l : String} {W : List UInt8 → Prop} (h : Spells m f W) : Spells m (.variant l f) W := by
  intro u
  constructor
  · intro h'; cases h' with | variant h' => exact (h u).1 h'
  · intro h'; exact .variant ((h u).2 h')

theorem spells_compute {e : Expr} : Spells m (.compute e) fun u => u = [] := by
  intro u
  constructor
  · intro h; cases h; rfl
  · rintro rfl; exact .compute

theorem spells_letFormat {x : String} {W W' : List UInt8 → Prop} (h : Spells m f W) (h' : Spells m g W') :
    Spells m (.letFormat f x g) fun w => ∃ u u', w = u ++ u' ∧ W u ∧ W' u' := by
  intro u
  constructor
  · intro hw
    cases hw with | letFormat h1 h2 => exact ⟨_, _, rfl, (h _).1 h1, (h' _).1 h2⟩
  · rintro ⟨u, u', rfl, h1, h2⟩
    exact .letFormat ((h _).2 h1) ((h' _).2 h2)

theorem spells_monadSeq {W W' : List UInt8 → Prop} (h : Spells m f W) (h' : Spells m g W') :
    Spells m (.monadSeq f g) fun w => ∃ u u', w = u ++ u' ∧ W u ∧ W' u' := by
  intro u
  constructor
  · intro hw
    cases hw with | monadSeq h1 h2 => exact ⟨_, _, rfl, (h _).1 h1, (h' _).1 h2⟩
  · rintro ⟨u, u', rfl, h1, h2⟩
    exact .monadSeq ((h _).2 h1) ((h' _).2 h2)

theorem spells_byte (bs : ByteSet) : Spells m (.byte bs) fun u => ∃ b, u = [b] ∧ bs.contains b = true := by
  intro u
  constructor
  · intro h; cases h with | byte h => exact ⟨_, rfl, h⟩
  · rintro ⟨b, rfl, h⟩; exact .byte h

theorem spells_map {e : Expr} {W : List UInt8 → Prop} (h : Spells m f W) : Spells m (.map f e) W := by
  intro u
  constructor
  · intro h'; cases h' with | map h' => exact (h u).1 h'
  · intro h'; exact .map ((h u).2 h')

theorem spells_item {l : Nat} {W : List UInt8 → Prop} {it : Item} (hi : m.items[l]? = some it)
    (h : Spells m it.format W) : Spells m (.itemVar l [] []) W := by
  intro u
  constructor
  · intro h'
    cases h' with
    | itemVar h1 h2 => rw [hi] at h1; cases h1; exact (h u).1 h2
  · intro h'; exact .itemVar hi ((h u).2 h')

theorem spells_union {fs : List Format} : Spells m (.union fs) fun u => ∃ f ∈ fs, Word m f u := by
  intro u
  constructor
  · intro h; cases h with | union h1 h2 => exact ⟨_, h1, h2⟩
  · rintro ⟨f, h1, h2⟩; exact .union h1 h2

theorem word_tuple {fs : List Format} {u : List UInt8} : Word m (.tuple fs) u ↔ Words m fs u :=
  ⟨fun h => by cases h with | tuple h => exact h, .tuple⟩

theorem words_nil {u : List UInt8} : Words m [] u ↔ u = [] :=
  ⟨fun h => by cases h; rfl, fun h => h ▸ .nil⟩

theorem words_cons {fs : List Format} {u : List UInt8} : Words m (f :: fs) u ↔ ∃ v w, u = v ++ w ∧ Word m f v ∧ Words m fs w :=
  ⟨fun h => by cases h with | cons h1 h2 => exact ⟨_, _, rfl, h1, h2⟩, fun ⟨_, _, e, h1, h2⟩ => e ▸ .cons h1 h2⟩

/-! ### no panics -/

/-- Every expression of the format has a value wherever it is reached. -/
def Total (m : Module) (f : Format) : Prop := ∀ codes s c, Safe m codes f s c

theorem total_byte (bs : ByteSet) : Total m (.byte bs) := fun _ _ _ => .byte

theorem total_map {e : Expr} (h : Reads m f L) (ht : Total m f) (he : ∀ s u v, L s u v → ∃ x, Sends e s v x) : Total m (.map f e) := by
  intro codes s c
  refine .map (ht codes s c) fun v c' k hp => ?_
  obtain ⟨u, _, _, hu, _⟩ := (h _ _ _ _ _ _).1 hp
  exact he s u v hu

theorem total_item {l : Nat} (hi : m.items[l]? = some ⟨[], [], f⟩) (h : Total m f) : Total m (.itemVar l [] []) :=
  fun codes _ c => .itemVar hi (by simp) (by simp) fun _ _ _ _ => h codes _ c

theorem total_union {fs : List Format} (h : ∀ f ∈ fs, Total m f) : Total m (.union fs) :=
  fun codes s c => .union fun f hf => h f hf codes s c

theorem total_tuple {fs : List Format} (h : ∀ f ∈ fs, Total m f) : Total m (.tuple fs) :=
  fun codes s _ => .tuple fun _ f _ c' _ hf _ => h f (List.mem_of_getElem? hf) codes s c'

theorem total_repeat (h : Total m f) : Total m (.repeat_ f) := fun codes s _ => .repeat_ fun _ c' _ _ => h codes s c'

theorem total_hint (h : Total m f) : Total m (.hint f) := fun codes s c => .hint (h codes s c)

theorem total_variant {l : String} (h : Total m f) : Total m (.variant l f) := fun codes s c => .variant (h codes s c)

theorem total_monadSeq (h : Total m f) (h' : Total m g) : Total m (.monadSeq f g) :=
  fun codes s c => .monadSeq (h codes s c) fun _ c' _ _ => h' codes s c'

/-! ### formats of a fixed number of bytes -/

/-- The format takes any `k` bytes, and their value is `z` of them. -/
structure Fixed (m : Module) (f : Format) (k : Nat) (z : List UInt8 → Value) : Prop where
  reads : Reads m f fun _ u v => u.length = k ∧ v = z u
  words : Spells m f fun u => u.length = k
  total : Total m f

/-- The format takes just these bytes, and has the value `v`. -/
structure Exactly (m : Module) (f : Format) (u : List UInt8) (v : Value) : Prop where
  reads : Reads m f fun _ u' v' => u' = u ∧ v' = v
  words : Spells m f fun u' => u' = u
  total : Total m f

theorem Fixed.hint {k : Nat} {z : List UInt8 → Value} (h : Fixed m f k z) : Fixed m (.hint f) k z :=
  ⟨reads_hint h.reads, spells_hint h.words, total_hint h.total⟩

end Grammar
end Doodle
