import Verif.Lemmas.Text
import Verif.Lemmas.Helper
import Verif.Model.Formats
import Verif.Spec.Formats

/-! The derivations of the small formats. -/

namespace Doodle

open Grammar
open Num (BitWidth)
open Helper

namespace Grammar

variable {m : Module} {f g : Format}

theorem exactly_byte (b : UInt8) : Exactly m (isByte b) [b] (.u8 b) := by
  have hb : ∀ x, (ByteSet.fromIter [b]).contains x = true ↔ x = b := fun x => by rw [contains_one]; exact decide_eq_true_iff
  refine ⟨(reads_byte _).congr fun s u v => ?_, fun u => (spells_byte _ u).trans ?_, total_byte _⟩
  · constructor
    · rintro ⟨x, rfl, h, rfl⟩; rw [(hb x).1 h]; exact ⟨rfl, rfl⟩
    · rintro ⟨rfl, rfl⟩; exact ⟨b, rfl, (hb b).2 rfl, rfl⟩
  · constructor
    · rintro ⟨x, rfl, h⟩; rw [(hb x).1 h]
    · rintro rfl; exact ⟨b, rfl, (hb b).2 rfl⟩

theorem exactly_bytes (bs : List UInt8) : Exactly m (isBytes bs) bs (.tuple (bs.map Value.u8)) := by
  have key : (ReadsAll m (bs.map isByte) fun _ u vs => u = bs ∧ vs = bs.map Value.u8) ∧ ∀ u, Words m (bs.map isByte) u ↔ u = bs := by
    induction bs with
    | nil => exact ⟨readsAll_nil, fun _ => words_nil⟩
    | cons b bs ih =>
      constructor
      · intro rej s c vs c' n
        rw [List.map_cons, readsAll_cons (exactly_byte b).reads ih.1 rej s c vs c' n]
        constructor
        · rintro ⟨_, r, h1, ⟨_, _, _, _, rfl, rfl, ⟨rfl, rfl⟩, rfl, rfl⟩, h2⟩; exact ⟨_, r, h1, ⟨rfl, rfl⟩, h2⟩
        · rintro ⟨_, r, h1, ⟨rfl, rfl⟩, h2⟩; exact ⟨_, r, h1, ⟨[b], bs, _, _, rfl, rfl, ⟨rfl, rfl⟩, rfl, rfl⟩, h2⟩
      · intro u
        rw [List.map_cons, words_cons]
        constructor
        · rintro ⟨v, w, rfl, h1, h2⟩
          rw [((exactly_byte b).words v).1 h1, (ih.2 w).1 h2]; rfl
        · rintro rfl
          exact ⟨[b], bs, rfl, ((exactly_byte b).words _).2 rfl, (ih.2 _).2 rfl⟩
  refine ⟨(reads_tuple key.1).congr fun s u v => ?_, fun u => word_tuple.trans (key.2 u), total_tuple ?_⟩
  · constructor
    · rintro ⟨vs, ⟨rfl, rfl⟩, rfl⟩; exact ⟨rfl, rfl⟩
    · rintro ⟨rfl, rfl⟩; exact ⟨_, ⟨rfl, rfl⟩, rfl⟩
  · intro f hf
    obtain ⟨b, _, rfl⟩ := List.mem_map.1 hf
    exact (exactly_byte b).total

theorem fixed_byte : Fixed m (.byte .full) 1 fun u => .u8 (u.headD 0) := by
  refine ⟨(reads_byte _).congr fun s u v => ?_, fun u => (spells_byte _ u).trans ?_, total_byte _⟩
  · constructor
    · rintro ⟨x, rfl, h, rfl⟩; exact ⟨rfl, rfl⟩
    · rintro ⟨h, rfl⟩
      obtain ⟨b, rfl⟩ := List.length_eq_one_iff.1 h
      exact ⟨b, rfl, full_contains b, rfl⟩
  · constructor
    · rintro ⟨x, rfl, h⟩; rfl
    · intro h
      obtain ⟨b, rfl⟩ := List.length_eq_one_iff.1 h
      exact ⟨b, rfl, full_contains b⟩

theorem fixed_u8 : Fixed m u8 1 fun u => .u8 (u.headD 0) := fixed_byte.hint

theorem fixed_bytes (k : Nat) : Fixed m (.tuple (List.replicate k (.byte .full))) k fun u => .tuple (u.map Value.u8) := by
  have key : (ReadsAll m (List.replicate k (.byte .full)) fun _ u vs => u.length = k ∧ vs = u.map Value.u8) ∧
      ∀ u, Words m (List.replicate k (.byte .full)) u ↔ u.length = k := by
    induction k with
    | zero =>
      refine ⟨?_, fun u => words_nil.trans List.length_eq_zero_iff.symm⟩
      intro rej s c vs c' n
      rw [List.replicate_zero, readsAll_nil rej s c vs c' n]
      constructor
      · rintro ⟨u, r, h1, ⟨rfl, rfl⟩, h2⟩; exact ⟨_, r, h1, ⟨rfl, rfl⟩, h2⟩
      · rintro ⟨u, r, h1, ⟨h, rfl⟩, h2⟩
        obtain rfl := List.length_eq_zero_iff.1 h
        exact ⟨_, r, h1, ⟨rfl, rfl⟩, h2⟩
    | succ k ih =>
      constructor
      · intro rej s c vs c' n
        rw [List.replicate_succ, readsAll_cons fixed_byte.reads ih.1 rej s c vs c' n]
        constructor
        · rintro ⟨_, r, h1, ⟨u, u', _, _, rfl, rfl, ⟨hu, rfl⟩, hu', rfl⟩, h2⟩
          obtain ⟨b, rfl⟩ := List.length_eq_one_iff.1 hu
          exact ⟨_, r, h1, ⟨by simp [hu'], rfl⟩, h2⟩
        · rintro ⟨u, r, h1, ⟨hu, rfl⟩, h2⟩
          cases u with
          | nil => cases hu
          | cons b u => exact ⟨_, r, h1, ⟨[b], u, _, _, rfl, rfl, ⟨rfl, rfl⟩, Nat.succ.inj hu, rfl⟩, h2⟩
      · intro u
        rw [List.replicate_succ, words_cons]
        constructor
        · rintro ⟨v, w, rfl, h1, h2⟩
          rw [List.length_append, (fixed_byte.words v).1 h1, (ih.2 w).1 h2, Nat.add_comm]
        · intro hu
          cases u with
          | nil => cases hu
          | cons b u => exact ⟨[b], u, rfl, (fixed_byte.words _).2 rfl, (ih.2 _).2 (Nat.succ.inj hu)⟩
  refine ⟨(reads_tuple key.1).congr fun s u v => ?_, fun u => word_tuple.trans (key.2 u), total_tuple ?_⟩
  · constructor
    · rintro ⟨vs, ⟨h, rfl⟩, rfl⟩; exact ⟨h, rfl⟩
    · rintro ⟨h, rfl⟩; exact ⟨_, ⟨h, rfl⟩, rfl⟩
  · intro f hf
    rw [List.eq_of_mem_replicate hf]
    exact fixed_byte.total

theorem fixed_word (w : BitWidth) (be : Bool) : Fixed m (word w be) (w.bits / 8) (wordValue w be) := by
  refine Fixed.hint ⟨(reads_map (fixed_bytes _).reads).congr fun s u v => ?_, spells_map (fixed_bytes _).words,
    total_map (fixed_bytes _).reads (fixed_bytes _).total ?_⟩
  · constructor
    · rintro ⟨_, x, ⟨h, rfl⟩, h2, rfl⟩
      have := (fromBytes_sends w be s u h).symm.trans h2
      cases this
      exact ⟨h, rfl⟩
    · rintro ⟨h, rfl⟩
      exact ⟨_, _, ⟨h, rfl⟩, fromBytes_sends w be s u h, rfl⟩
  · rintro s u v ⟨h, rfl⟩
    exact ⟨_, fromBytes_sends w be s u h⟩

/-- a signed integer from an unsigned one -/
theorem fixed_cast {w : BitWidth} {k : Nat} {z : List UInt8 → Value} (hk : w.bits / 8 = k) (h : Fixed m f k z)
    (hz : ∀ u, u.length = k → (z u).toStrict = some ⟨⟨bigEnd u, .concrete ⟨false, w⟩⟩, true⟩) :
    Fixed m (mapNumeric f fun v => .cast ⟨true, w⟩ true v) k
      fun u => .numeric ⟨twosComplement w (bigEnd u), .concrete ⟨true, w⟩⟩ := by
  have hlt : ∀ u : List UInt8, u.length = k → bigEnd u < 2 ^ w.bits := fun u hu => by
    rw [bits_bytes, hk, ← hu]; exact bigEnd_lt u
  refine ⟨(reads_letFormat h.reads reads_compute).congr fun s u v => ?_, fun u => (spells_letFormat h.words spells_compute u).trans ?_, ?_⟩
  · constructor
    · rintro ⟨u, _, _, rfl, ⟨hu, rfl⟩, rfl, h2⟩
      have := (cast_signed (s := s) (hz u hu) (hlt u hu)).symm.trans h2
      cases this
      rw [List.append_nil]
      exact ⟨hu, rfl⟩
    · rintro ⟨hu, rfl⟩
      exact ⟨u, [], _, (List.append_nil u).symm, ⟨hu, rfl⟩, rfl, cast_signed (hz u hu) (hlt u hu)⟩
  · constructor
    · rintro ⟨u, _, rfl, hu, rfl⟩; rw [List.append_nil]; exact hu
    · intro hu; exact ⟨u, [], (List.append_nil u).symm, hu, rfl⟩
  · intro codes s c
    refine .letFormat (h.total codes s c) fun v c' n hp => ?_
    obtain ⟨u, _, _, ⟨hu, rfl⟩, _⟩ := (h.reads ..).1 hp
    exact .compute (cast_signed (hz u hu) (hlt u hu))

theorem fixed_signed (w : BitWidth) : Fixed m (signedWord w) (w.bits / 8)
    fun u => .numeric ⟨twosComplement w (bigEnd u), .concrete ⟨true, w⟩⟩ := by
  unfold signedWord
  by_cases hw : w = .b8
  · subst hw
    rw [if_pos rfl]
    refine fixed_cast rfl fixed_u8 fun u hu => ?_
    obtain ⟨b, rfl⟩ := List.length_eq_one_iff.1 hu
    rw [show bigEnd [b] = b.toNat by simp [bigEnd]]
    rfl
  · rw [if_neg hw]
    refine fixed_cast rfl (fixed_word w true) fun u hu => ?_
    have hb : bigEnd u < 2 ^ w.bits := by rw [bits_bytes, ← hu]; exact bigEnd_lt u
    show (num w (bigEnd u)).toStrict = _
    rw [num_eq hb]; rfl

end Grammar

namespace Formats
namespace Numbers

variable {m : Module} {f g : Format}

/-- the content of an alternative, with the bytes it was made from -/
def raw (sg : Bool) (w : BitWidth) (bs : List UInt8) : Value :=
  if sg then .numeric ⟨twosComplement w (bigEnd bs), .concrete ⟨true, w⟩⟩
  else if w = .b8 then .u8 (bs.headD 0) else wordValue w true bs

theorem raw_value (e : Entry) (h : e.Valid) : (raw e.signed e.width e.bytes).coerceMapped = e.value := by
  obtain ⟨sg, w, bs⟩ := e
  unfold raw Entry.value
  cases sg with
  | true => rfl
  | false =>
    by_cases hw : w = .b8
    · subst hw
      obtain ⟨b, rfl⟩ := List.length_eq_one_iff.1 ((show bs.length = BitWidth.b8.bits / 8 from h).trans rfl)
      show Value.u8 b = num .b8 (bigEnd [b])
      rw [show bigEnd [b] = b.toNat by simp [bigEnd], Text.u8_num]
    · simp only [Bool.false_eq_true, if_false, if_neg hw]; rfl

theorem alt_entry {F : Format} {sg : Bool} {w : BitWidth} (h : Fixed m F (w.bits / 8) (raw sg w)) :
    (Reads m (.variant (name sg w) (.monadSeq (isByte (tag sg w)) F)) fun _ u v => ∃ bs, bs.length = w.bits / 8 ∧
      u = tag sg w :: bs ∧ v = .variant (name sg w) (raw sg w bs)) ∧
    (Spells m (.variant (name sg w) (.monadSeq (isByte (tag sg w)) F)) fun u => ∃ bs, bs.length = w.bits / 8 ∧ u = tag sg w :: bs) ∧
    Total m (.variant (name sg w) (.monadSeq (isByte (tag sg w)) F)) := by
  have hb := exactly_byte (m := m) (tag sg w)
  refine ⟨(reads_variant (reads_monadSeq hb.reads h.reads)).congr fun s u v => ?_,
    fun u => (spells_variant (spells_monadSeq hb.words h.words) u).trans ?_, total_variant (total_monadSeq hb.total h.total)⟩
  · constructor
    · rintro ⟨_, ⟨_, bs, _, rfl, ⟨rfl, rfl⟩, h1, rfl⟩, rfl⟩; exact ⟨bs, h1, rfl, rfl⟩
    · rintro ⟨bs, h1, rfl, rfl⟩; exact ⟨_, ⟨[_], bs, _, rfl, ⟨rfl, rfl⟩, h1, rfl⟩, rfl⟩
  · constructor
    · rintro ⟨_, bs, rfl, rfl, h1⟩; exact ⟨bs, h1, rfl⟩
    · rintro ⟨bs, h1, rfl⟩; exact ⟨[_], bs, rfl, rfl, h1⟩

/-- the formats of the alternatives -/
def body : Bool → BitWidth → Format
  | true, w => signedWord w
  | false, .b8 => u8
  | false, w => word w true

theorem fixed_body (sg : Bool) (w : BitWidth) : Fixed m (body sg w) (w.bits / 8) (raw sg w) := by
  cases sg with
  | true => exact fixed_signed w
  | false =>
    cases w with
    | b8 => exact fixed_u8
    | b16 => exact fixed_word .b16 true
    | b32 => exact fixed_word .b32 true
    | b64 => exact fixed_word .b64 true

/-- the alternatives, in order -/
def kinds : List (Bool × BitWidth) :=
  [(false, .b8), (false, .b16), (false, .b32), (false, .b64), (true, .b8), (true, .b16), (true, .b32), (true, .b64)]

theorem kinds_at (sg : Bool) (w : BitWidth) : kinds[(tag sg w).toNat]? = some (sg, w) := by cases sg <;> cases w <;> rfl

theorem tag_at {i : Nat} {sg : Bool} {w : BitWidth} (h : kinds[i]? = some (sg, w)) : (tag sg w).toNat = i := by
  match i with
  | 0 | 1 | 2 | 3 | 4 | 5 | 6 | 7 => cases h; rfl
  | i + 8 => cases h

/-- an alternative -/
def alt (p : Bool × BitWidth) : Format := .variant (name p.1 p.2) (.monadSeq (isByte (tag p.1 p.2)) (body p.1 p.2))

theorem numValue_eq : numValue = .union (kinds.map alt) := rfl

theorem reads_value : Reads m numValue fun _ u v => ∃ e : Entry, e.Valid ∧ u = e.encode ∧
    v = .branch (tag e.signed e.width).toNat (.variant (name e.signed e.width) (raw e.signed e.width e.bytes)) := by
  rw [numValue_eq]
  refine (reads_union (P := fun i _ u v => ∃ e : Entry, kinds[i]? = some (e.signed, e.width) ∧ e.Valid ∧ u = e.encode ∧
    v = .variant (name e.signed e.width) (raw e.signed e.width e.bytes)) ?_).congr fun s u v => ?_
  · intro i f hf
    rw [List.getElem?_map] at hf
    cases hk : kinds[i]? with
    | none => rw [hk] at hf; cases hf
    | some p =>
      obtain ⟨sg, w⟩ := p
      rw [hk] at hf
      cases hf
      refine (alt_entry (fixed_body sg w)).1.congr fun s u v => ?_
      constructor
      · rintro ⟨bs, h1, rfl, rfl⟩; exact ⟨⟨sg, w, bs⟩, rfl, h1, rfl, rfl⟩
      · rintro ⟨⟨sg', w', bs⟩, h0, h1, rfl, rfl⟩
        cases h0
        exact ⟨bs, h1, rfl, rfl⟩
  · constructor
    · rintro ⟨i, _, _, ⟨e, h0, h1, rfl, rfl⟩, rfl⟩
      exact ⟨e, h1, rfl, by rw [tag_at h0]⟩
    · rintro ⟨e, h1, rfl, rfl⟩
      have h0 := kinds_at e.signed e.width
      refine ⟨_, _, ?_, ⟨e, h0, h1, rfl, rfl⟩, rfl⟩
      rw [List.length_map]
      exact (List.getElem?_eq_some_iff.1 h0).1

theorem words_value : Spells m numValue fun u => ∃ e : Entry, e.Valid ∧ u = e.encode := by
  intro u
  rw [numValue_eq, spells_union u]
  constructor
  · rintro ⟨f, hf, hw⟩
    obtain ⟨⟨sg, w⟩, _, rfl⟩ := List.mem_map.1 hf
    obtain ⟨bs, h1, rfl⟩ := ((alt_entry (fixed_body sg w)).2.1 u).1 hw
    exact ⟨⟨sg, w, bs⟩, h1, rfl⟩
  · rintro ⟨⟨sg, w, bs⟩, h1, rfl⟩
    exact ⟨alt (sg, w), List.mem_map.2 ⟨_, List.mem_of_getElem? (kinds_at sg w), rfl⟩,
      ((alt_entry (fixed_body sg w)).2.1 _).2 ⟨bs, h1, rfl⟩⟩

theorem total_value : Total m numValue := by
  rw [numValue_eq]
  refine total_union fun f hf => ?_
  obtain ⟨⟨sg, w⟩, _, rfl⟩ := List.mem_map.1 hf
  exact (alt_entry (fixed_body sg w)).2.2

theorem tag_inj {sg sg' : Bool} {w w' : BitWidth} (h : tag sg w = tag sg' w') : sg = sg' ∧ w = w' := by
  cases sg <;> cases w <;> cases sg' <;> cases w' <;> first | exact ⟨rfl, rfl⟩ | exact absurd h (by decide)

theorem entry_prefix {e e' : Entry} (h : e.Valid) (h' : e'.Valid) {p q : List UInt8} (he : e.encode ++ p = e'.encode ++ q) :
    e = e' ∧ p = q := by
  obtain ⟨sg, w, bs⟩ := e
  obtain ⟨sg', w', bs'⟩ := e'
  have ht := (List.cons.inj he).1
  have hb := (List.cons.inj he).2
  obtain ⟨rfl, rfl⟩ := tag_inj ht
  obtain ⟨rfl, rfl⟩ := List.append_inj hb (h.trans h'.symm)
  exact ⟨rfl, rfl⟩

theorem value_free : PrefixFree m numValue := by
  intro u p h1 h2
  obtain ⟨e, he, rfl⟩ := (words_value u).1 h1
  obtain ⟨e', he', h⟩ := (words_value _).1 h2
  exact (entry_prefix he he' (h.trans (List.append_nil _).symm)).2

/-- the record as a chain of formats -/
theorem numbers_eq (l : Nat) : numbers l = .hint (.monadSeq (isBytes magic)
    (.letFormat (.repeat_ (.itemVar l [] [])) "values" (.compute (.record [("values", .var "values")])))) := by
  unfold numbers Record.recordAuto Record.recordExt
  simp only [List.map]
  rw [show Record.autoLabel "__magic" = none by decide +kernel, show Record.autoLabel "values" = some ("values", true) by decide +kernel]
  rfl

section
variable {l : Nat} (hi : m.items[l]? = some ⟨[], [], numValue⟩)
include hi

/-- the value of one entry -/
def made (e : Entry) : Value :=
  .branch (tag e.signed e.width).toNat (.variant (name e.signed e.width) (raw e.signed e.width e.bytes))

theorem reads_numbers : Reads m (numbers l) fun _ u v => ∃ es : List Entry, (∀ e ∈ es, e.Valid) ∧ u = document es ∧
    v = .record [("values", .seq (.strict (es.map made)))] := by
  rw [numbers_eq]
  refine (reads_hint (reads_monadSeq (exactly_bytes magic).reads
    (reads_letFormat (reads_repeat (reads_item hi reads_value)) reads_compute))).congr fun s u v => ?_
  have hd : ∀ (z : Value), Denotes (.record [("values", .var "values")]) (.single "values" z s) (.record [("values", z)]) :=
    fun z => rfl
  constructor
  · rintro ⟨_, _, _, rfl, ⟨rfl, rfl⟩, u, _, _, rfl, ⟨vs, hp, rfl⟩, rfl, h⟩
    have := (hd _).symm.trans h
    cases this
    rw [List.append_nil]
    have : ∃ es : List Entry, (∀ e ∈ es, e.Valid) ∧ u = es.flatMap Entry.encode ∧ vs = es.map made := by
      induction hp with
      | nil => exact ⟨[], by simp, rfl, rfl⟩
      | cons h1 _ ih =>
        obtain ⟨es, h2, rfl, rfl⟩ := ih (hd _)
        obtain ⟨e, h3, rfl, rfl⟩ := h1
        refine ⟨e :: es, ?_, rfl, rfl⟩
        intro x hx
        rcases List.mem_cons.1 hx with rfl | hx
        · exact h3
        · exact h2 x hx
    obtain ⟨es, h2, rfl, rfl⟩ := this
    exact ⟨es, h2, rfl, rfl⟩
  · rintro ⟨es, hes, rfl, rfl⟩
    refine ⟨magic, _, _, rfl, ⟨rfl, rfl⟩, es.flatMap Entry.encode, [], _, (List.append_nil _).symm, ⟨es.map made, ?_, rfl⟩, rfl, hd _⟩
    induction es with
    | nil => exact .nil
    | cons e es ih => exact .cons ⟨e, hes e (.head _), rfl, rfl⟩ (ih fun x hx => hes x (.tail _ hx))

theorem words_numbers : Spells m (numbers l) fun u => ∃ es : List Entry, (∀ e ∈ es, e.Valid) ∧ u = document es := by
  rw [numbers_eq]
  have hr : Spells m (.repeat_ (.itemVar l [] [])) fun u => ∃ es : List Entry, (∀ e ∈ es, e.Valid) ∧ u = es.flatMap Entry.encode := by
    have hw := spells_item hi (words_value (m := m))
    intro u
    constructor
    · intro h
      cases h with
      | @repeat_ _ n _ hp =>
        induction n generalizing u with
        | zero => cases hp; exact ⟨[], by simp, rfl⟩
        | succ n ih =>
          cases hp with
          | succ h1 h2 =>
            obtain ⟨es, h3, rfl⟩ := ih _ h2
            obtain ⟨e, h4, rfl⟩ := (hw _).1 h1
            refine ⟨e :: es, ?_, rfl⟩
            intro x hx
            rcases List.mem_cons.1 hx with rfl | hx
            · exact h4
            · exact h3 x hx
    · rintro ⟨es, hes, rfl⟩
      refine .repeat_ (n := es.length) ?_
      induction es with
      | nil => exact .zero
      | cons e es ih => exact .succ ((hw _).2 ⟨e, hes e (.head _), rfl⟩) (ih fun x hx => hes x (.tail _ hx))
  intro u
  rw [spells_hint (spells_monadSeq (exactly_bytes magic).words (spells_letFormat hr spells_compute)) u]
  constructor
  · rintro ⟨_, _, rfl, rfl, _, _, rfl, ⟨es, hes, rfl⟩, rfl⟩
    exact ⟨es, hes, by rw [List.append_nil]; rfl⟩
  · rintro ⟨es, hes, rfl⟩
    exact ⟨magic, _, rfl, rfl, _, [], (List.append_nil _).symm, ⟨es, hes, rfl⟩, rfl⟩

theorem total_numbers : Total m (numbers l) := by
  rw [numbers_eq]
  refine total_hint (total_monadSeq (exactly_bytes magic).total fun codes s c => ?_)
  exact .letFormat (total_repeat (total_item hi total_value) codes s c) fun v c' k _ => .compute (v := .record [("values", v)]) rfl

end

end Numbers

/-! ### run-length encoding -/

namespace Rle

variable {m : Module}

/-- the value of a run -/
def runValue (x y : String) (r : UInt8 × UInt8) : Value :=
  .record [(x, .u8 r.1), (y, .u8 r.2), ("buf", .seq (.strict (List.replicate r.1.toNat (.u8 r.2))))]

/-- a run as a chain of formats -/
def runChain (x y : String) : Format :=
  .hint (.letFormat u8 x (.letFormat u8 y (.letFormat (.repeatCount (.var x) (.compute (.var y))) "buf"
    (.compute (.record [(x, .var x), (y, .var y), ("buf", .var "buf")])))))

theorem oldRun_eq : oldRun = runChain "len" "char" := rfl
theorem newRun_eq : newRun = runChain "_len" "_char" := rfl

/-- the names of a run can be told apart -/
structure Names (x y : String) : Prop where
  len : ∀ (s : Scope Format) (a b : UInt8), Denotes (.var x) (.single y (.u8 b) (.single x (.u8 a) s)) (.u8 a)
  char : ∀ (s : Scope Format) (b : UInt8), Denotes (.var y) (.single y (.u8 b) s) (.u8 b)
  all : ∀ (s : Scope Format) (a b z : Value), Denotes (.record [(x, .var x), (y, .var y), ("buf", .var "buf")])
    (.single "buf" z (.single y b (.single x a s))) (.record [(x, a), (y, b), ("buf", z)])
  buf : ∀ (s : Scope Format) r, Sends (.lambda "run" (.recordProj (.var "run") "buf")) s (runValue x y r)
    (.seq (.strict (List.replicate r.1.toNat (.u8 r.2))))

theorem names_old : Names "len" "char" := ⟨fun _ _ _ => rfl, fun _ _ => rfl, fun _ _ _ _ => rfl, fun _ _ => rfl⟩
theorem names_new : Names "_len" "_char" := ⟨fun _ _ _ => rfl, fun _ _ => rfl, fun _ _ _ _ => rfl, fun _ _ => rfl⟩

theorem usize_u8 (b : UInt8) : (Value.u8 b).unwrapUsize = .ok b.toNat := rfl

theorem reads_run {x y : String} (hn : Names x y) :
    Reads m (runChain x y) fun _ u v => ∃ r : UInt8 × UInt8, True ∧ u = [r.1, r.2] ∧ v = runValue x y r := by
  refine (reads_hint (reads_letFormat fixed_u8.reads (reads_letFormat fixed_u8.reads
    (reads_letFormat (reads_repeatCount reads_compute) reads_compute)))).congr fun s u v => ?_
  have hp : ∀ (a b : UInt8) u vs, Pieces (fun u v => u = [] ∧ Denotes (.var y) (.single y (.u8 b) (.single x (.u8 a) s)) v) u vs ↔
      u = [] ∧ vs = List.replicate vs.length (.u8 b) := by
    intro a b u vs
    have : (fun (u : List UInt8) v => u = [] ∧ Denotes (.var y) (.single y (.u8 b) (.single x (.u8 a) s)) v) = fun u v => u = [] ∧ v = .u8 b := by
      funext u v
      refine propext (and_congr_right fun _ => ⟨fun h => ?_, fun h => h ▸ hn.char _ _⟩)
      have := (hn.char _ _).symm.trans h
      cases this
      rfl
    rw [this, pieces_same]
    simp
  constructor
  · rintro ⟨u1, _, _, rfl, ⟨h1, rfl⟩, u2, _, _, rfl, ⟨h2, rfl⟩, u3, _, _, rfl, ⟨n, vs, ⟨z, hz, hz'⟩, h3, h4, rfl⟩, rfl, h5⟩
    obtain ⟨a, rfl⟩ := List.length_eq_one_iff.1 h1
    obtain ⟨b, rfl⟩ := List.length_eq_one_iff.1 h2
    obtain ⟨rfl, h6⟩ := (hp a b _ _).1 h3
    have := (hn.len _ _ _).symm.trans hz
    cases this
    cases hz'
    have := (hn.all _ _ _ _).symm.trans h5
    cases this
    refine ⟨(a, b), trivial, rfl, ?_⟩
    rw [h6, h4]; rfl
  · rintro ⟨⟨a, b⟩, _, rfl, rfl⟩
    refine ⟨[a], [b], _, rfl, ⟨rfl, rfl⟩, [b], [], _, rfl, ⟨rfl, rfl⟩, [], [], _, rfl,
      ⟨a.toNat, List.replicate a.toNat (.u8 b), ⟨_, hn.len _ _ _, rfl⟩, (hp a b _ _).2 ⟨rfl, by rw [List.length_replicate]⟩, List.length_replicate, rfl⟩,
      rfl, hn.all _ _ _ _⟩

theorem total_run {x y : String} (hn : Names x y) : Total m (runChain x y) := by
  refine total_hint fun codes s c => .letFormat (fixed_u8.total codes s c) fun v c' k hv =>
    .letFormat (fixed_u8.total _ _ _) fun v' c' k hv' => .letFormat ?_ fun z c' k _ => .compute (hn.all _ _ _ _)
  obtain ⟨u, _, _, ⟨hu, rfl⟩, _⟩ := (fixed_u8.reads ..).1 hv
  obtain ⟨u', _, _, ⟨hu', rfl⟩, _⟩ := (fixed_u8.reads ..).1 hv'
  exact .repeatCount (n := (u.headD 0).toNat) ⟨_, hn.len _ _ _, rfl⟩ fun _ _ _ _ _ => .compute (hn.char _ _)

theorem data_loop {x y : String} (hn : Names x y) (s : Scope Format) (rs : List (UInt8 × UInt8)) (acc : List Value) :
    Expr.flatMapLoop (fun a => (Expr.lambda "run" (.recordProj (.var "run") "buf")).evalLambda s a) acc (rs.map (runValue x y)) =
      .ok (acc ++ (expand rs).map Value.u8) := by
  induction rs generalizing acc with
  | nil => exact congrArg Panicky.ok (List.append_nil acc).symm
  | cons r rs ih =>
    rw [List.map_cons, Expr.flatMapLoop, show (Expr.lambda "run" (.recordProj (.var "run") "buf")).evalLambda s (runValue x y r) = _ from hn.buf s r]
    show Expr.flatMapLoop _ (acc ++ List.replicate r.1.toNat (.u8 r.2)) _ = _
    rw [ih]
    simp [expand]

/-- the names of the runs and of the expanded data -/
structure RunsName (z : String) : Prop where
  runs : ∀ (s : Scope Format) (vs : List Value), Expr.eval (.var z) (.single z (.seq (.strict vs)) s) = .ok (.seq (.strict vs))

theorem data_denotes {x y z : String} (hn : Names x y) (hz : RunsName z) (rs : List (UInt8 × UInt8)) (s : Scope Format) :
    Denotes (.flatMap (.lambda "run" (.recordProj (.var "run") "buf")) (.var z)) (.single z (.seq (.strict (rs.map (runValue x y)))) s)
      (.seq (.strict ((expand rs).map Value.u8))) := by
  have h1 : Expr.eval (.flatMap (.lambda "run" (.recordProj (.var "run") "buf")) (.var z)) (.single z (.seq (.strict (rs.map (runValue x y)))) s) =
      .ok (.seq (.strict ((expand rs).map Value.u8))) := by
    rw [Expr.eval, hz.runs]
    show (do
      let r ← Expr.flatMapLoop _ [] (rs.map (runValue x y))
      Panicky.ok (Value.seq (.strict r))) = _
    rw [data_loop hn]
    rfl
  unfold Denotes Expr.evalValue
  rw [h1]
  rfl

theorem oldStyle_eq (l : Nat) : oldStyle l = .hint (.letFormat (.repeat_ (.itemVar l [] [])) "runs" (.letFormat (data "runs") "data"
    (.compute (.record [("runs", .var "runs"), ("data", .var "data")])))) := rfl

theorem newStyle_eq (l : Nat) : newStyle l = .hint (.letFormat (.repeat_ (.itemVar l [] [])) "_runs" (.letFormat (data "_runs") "data"
    (.compute (.record [("data", .var "data")])))) := by
  unfold newStyle Record.recordAuto Record.recordExt
  simp only [List.map]
  rw [show Record.autoLabel "_runs" = some ("_runs", false) by decide +kernel, show Record.autoLabel "data" = some ("data", true) by decide +kernel]
  rfl

/-- the fields of the record -/
def fields (z x y : String) (keep : Bool) (rs : List (UInt8 × UInt8)) : Value :=
  .record ((if keep then [(z, .seq (.strict (rs.map (runValue x y))))] else []) ++ [("data", .seq (.strict ((expand rs).map Value.u8)))])

section
variable {l : Nat} {x y z : String} {r : Expr} (keep : Bool) (hi : m.items[l]? = some ⟨[], [], runChain x y⟩) (hn : Names x y) (hz : RunsName z)
  (hr : ∀ (s : Scope Format) a b, Denotes r (.single "data" b (.single z a s)) (.record ((if keep then [(z, a)] else []) ++ [("data", b)])))
include hi hn hz hr

theorem reads_style : Reads m (.hint (.letFormat (.repeat_ (.itemVar l [] [])) z (.letFormat (data z) "data" (.compute r))))
    fun _ u v => ∃ rs, u = encode rs ∧ v = fields z x y keep rs := by
  refine (reads_hint (reads_letFormat (reads_repeat (reads_item hi (reads_run hn)))
    (reads_letFormat (reads_hint reads_compute) reads_compute))).congr fun s u v => ?_
  constructor
  · rintro ⟨u, _, _, rfl, ⟨vs, hp, rfl⟩, u2, _, w, rfl, ⟨rfl, h1⟩, rfl, h2⟩
    obtain ⟨rs, _, rfl, rfl⟩ := pieces_made.1 hp
    have := (data_denotes hn hz rs s).symm.trans h1
    cases this
    have := (hr _ _ _).symm.trans h2
    cases this
    exact ⟨rs, by rw [List.append_nil, List.append_nil]; rfl, rfl⟩
  · rintro ⟨rs, rfl, rfl⟩
    exact ⟨encode rs, [], _, (List.append_nil _).symm, ⟨_, pieces_made.2 ⟨rs, fun _ _ => trivial, rfl, rfl⟩, rfl⟩, [], [], _, rfl,
      ⟨rfl, data_denotes hn hz rs s⟩, rfl, hr _ _ _⟩

theorem total_style : Total m (.hint (.letFormat (.repeat_ (.itemVar l [] [])) z (.letFormat (data z) "data" (.compute r)))) := by
  refine total_hint fun codes s c => .letFormat (total_repeat (total_item hi (total_run hn)) codes s c) fun v c' k hv =>
    .letFormat (.hint ?_) fun w c'' k' _ => .compute (hr _ _ _)
  obtain ⟨u, _, _, ⟨vs, hp, rfl⟩, _⟩ := (reads_repeat (reads_item hi (reads_run hn)) ..).1 hv
  obtain ⟨rs, _, rfl, rfl⟩ := pieces_made.1 hp
  exact .compute (data_denotes hn hz rs s)

end

section
variable {l : Nat} (h0 : m.items[l]? = some ⟨[], [], oldRun⟩) (h1 : m.items[l + 1]? = some ⟨[], [], oldStyle l⟩)
  (h2 : m.items[l + 2]? = some ⟨[], [], newRun⟩) (h3 : m.items[l + 3]? = some ⟨[], [], newStyle (l + 2)⟩)
include h0 h1 h2 h3

/-- the value of a document -/
def made (new : Bool) (rs : List (UInt8 × UInt8)) : Value :=
  if new then .branch 1 (.variant "new-style" (fields "_runs" "_len" "_char" false rs))
  else .branch 0 (.variant "old-style" (fields "runs" "len" "char" true rs))

theorem reads_rle : Reads m (rle l) fun _ u v => ∃ new rs, u = (if new then 1 else 0) :: encode rs ∧ v = made new rs := by
  have ho := reads_item h1 (by
    rw [oldStyle_eq]; exact reads_style (z := "runs") true h0 names_old ⟨fun _ _ => rfl⟩ (fun _ _ _ => rfl))
  have hn := reads_item h3 (by
    rw [newStyle_eq]; exact reads_style (z := "_runs") false h2 names_new ⟨fun _ _ => rfl⟩ (fun _ _ _ => rfl))
  refine (reads_union (P := fun i _ u v => ∃ rs, (i = 0 ∧ u = 0 :: encode rs ∧ v = .variant "old-style" (fields "runs" "len" "char" true rs)) ∨
    (i = 1 ∧ u = 1 :: encode rs ∧ v = .variant "new-style" (fields "_runs" "_len" "_char" false rs))) ?_).congr fun s u v => ?_
  · intro i f hf
    match i with
    | 0 =>
      cases hf
      refine (reads_monadSeq (exactly_byte 0).reads (reads_variant ho)).congr fun s u v => ?_
      constructor
      · rintro ⟨_, _, _, rfl, ⟨rfl, rfl⟩, _, ⟨rs, rfl, rfl⟩, rfl⟩; exact ⟨rs, .inl ⟨rfl, rfl, rfl⟩⟩
      · rintro ⟨rs, ⟨_, rfl, rfl⟩ | ⟨h, _⟩⟩
        · exact ⟨[0], _, _, rfl, ⟨rfl, rfl⟩, _, ⟨rs, rfl, rfl⟩, rfl⟩
        · cases h
    | 1 =>
      cases hf
      refine (reads_monadSeq (exactly_byte 1).reads (reads_variant hn)).congr fun s u v => ?_
      constructor
      · rintro ⟨_, _, _, rfl, ⟨rfl, rfl⟩, _, ⟨rs, rfl, rfl⟩, rfl⟩; exact ⟨rs, .inr ⟨rfl, rfl, rfl⟩⟩
      · rintro ⟨rs, ⟨h, _⟩ | ⟨_, rfl, rfl⟩⟩
        · cases h
        · exact ⟨[1], _, _, rfl, ⟨rfl, rfl⟩, _, ⟨rs, rfl, rfl⟩, rfl⟩
    | i + 2 => cases hf
  · constructor
    · rintro ⟨i, _, _, ⟨rs, ⟨rfl, rfl, rfl⟩ | ⟨rfl, rfl, rfl⟩⟩, rfl⟩
      · exact ⟨false, rs, rfl, rfl⟩
      · exact ⟨true, rs, rfl, rfl⟩
    · rintro ⟨new, rs, rfl, rfl⟩
      cases new with
      | false => exact ⟨0, _, Nat.zero_lt_two, ⟨rs, .inl ⟨rfl, rfl, rfl⟩⟩, rfl⟩
      | true => exact ⟨1, _, Nat.one_lt_two, ⟨rs, .inr ⟨rfl, rfl, rfl⟩⟩, rfl⟩

theorem total_rle : Total m (rle l) := by
  refine total_union fun f hf => ?_
  rcases List.mem_cons.1 hf with rfl | hf
  · refine total_monadSeq (exactly_byte 0).total (total_variant (total_item h1 ?_))
    rw [oldStyle_eq]; exact total_style (z := "runs") true h0 names_old ⟨fun _ _ => rfl⟩ (fun _ _ _ => rfl)
  · rcases List.mem_cons.1 hf with rfl | hf
    · refine total_monadSeq (exactly_byte 1).total (total_variant (total_item h3 ?_))
      rw [newStyle_eq]; exact total_style (z := "_runs") false h2 names_new ⟨fun _ _ => rfl⟩ (fun _ _ _ => rfl)
    · cases hf

end

end Rle

/-! ### peano -/

namespace Peano

variable {m : Module}

/-- the value of a number -/
def made (n : Nat) : Value := .mapped (.tuple [.seq (.strict (List.replicate n (.u8 0x53))), .u8 0x5A]) (num .b32 n)

theorem reads_decimal : Reads m decimal fun _ u v => ∃ n, n ≤ 9 ∧ u = encode n ∧ v = made n := by
  have hs : ∀ (s : Scope Format) n, n ≤ 9 → Sends (lambdaTuple ["s", "_z"] (.seqLength (.var "s"))) s
      (.tuple [.seq (.strict (List.replicate n (.u8 0x53))), .u8 0x5A]) (num .b32 n) := by
    intro s n hn
    match n with
    | 0 | 1 | 2 | 3 | 4 | 5 | 6 | 7 | 8 | 9 => rfl
    | n + 10 => omega
  unfold decimal
  refine (reads_map (reads_tuple (readsAll_cons (reads_repeatBetween (exactly_byte _).reads)
    (readsAll_cons (exactly_byte _).reads readsAll_nil)))).congr fun s u v => ?_
  have h0 : ∀ n, DenotesNat (lit .b16 0) s n ↔ n = 0 := by
    intro n
    constructor
    · rintro ⟨v, h1, h2⟩
      cases h1
      cases h2
      rfl
    · rintro rfl; exact ⟨_, rfl, rfl⟩
  have h9 : ∀ n, DenotesNat (lit .b16 9) s n ↔ n = 9 := by
    intro n
    constructor
    · rintro ⟨v, h1, h2⟩
      cases h1
      cases h2
      rfl
    · rintro rfl; exact ⟨_, rfl, rfl⟩
  constructor
  · rintro ⟨_, x, ⟨_, ⟨u, _, _, _, rfl, rfl, ⟨lo, hi, vs, _, hhi, hp, _, hle, rfl⟩, _, _, _, _, rfl, rfl, ⟨rfl, rfl⟩, rfl, rfl⟩, rfl⟩, hx, rfl⟩
    obtain ⟨hu, hvs⟩ := pieces_same.1 hp
    rw [(h9 hi).1 hhi] at hle
    rw [hvs] at hx ⊢
    have := (hs s _ hle).symm.trans hx
    cases this
    refine ⟨vs.length, hle, ?_, rfl⟩
    rw [hu]
    simp [encode]
  · rintro ⟨n, hn, rfl, rfl⟩
    refine ⟨_, _, ⟨_, ⟨List.replicate n 0x53, [0x5A], _, _, rfl, rfl, ⟨0, 9, List.replicate n (.u8 0x53), (h0 0).2 rfl, (h9 9).2 rfl, ?_,
      Nat.zero_le _, ?_, rfl⟩, [0x5A], [], _, _, rfl, rfl, ⟨rfl, rfl⟩, rfl, rfl⟩, rfl⟩, hs s n hn, rfl⟩
    · rw [pieces_same]; simp
    · rw [List.length_replicate]; exact hn

end Peano
end Formats
end Doodle
