import Verif.Lemmas.Text
import Verif.Props.Sound
import Verif.Props.Complete
import Verif.Props.Terminate
import Verif.Props.Munch
import Verif.Props.Safe

/-! # C54: the text format decodes exactly UTF-8

The formats are those that `text::main` adds to a module, at whatever place they land (`pre` are the items that are
already there, `post` the items added later).  UTF-8 is the encoding of Lean's core library, `String.utf8EncodeChar`. -/

namespace Doodle
namespace Text

open Grammar Compiler Helper

/-- the module in which `text::main` has found the items `pre`, with the items `post` added after it -/
def within (pre post : List Item) : Module := ⟨pre ++ items pre.length ++ post⟩

/-- the UTF-8 encoding of a text -/
def utf8 (cs : List Char) : List UInt8 := cs.flatMap String.utf8EncodeChar

/-- the value is the sequence of the characters -/
def IsText (v : Value) (cs : List Char) : Prop :=
  ∃ vs, v = .seq (.strict vs) ∧ vs.map Value.coerceMapped = cs.map Value.char

theorem item_at (pre post : List Item) {i : Nat} {it : Item} (h : (items pre.length)[i]? = some it) :
    (within pre post).items[pre.length + i]? = some it := by
  have hi : i < (items pre.length).length := (List.getElem?_eq_some_iff.1 h).1
  show (pre ++ items pre.length ++ post)[_]? = _
  rw [List.append_assoc, List.getElem?_append_right (Nat.le_add_right _ _), Nat.add_sub_cancel_left,
    List.getElem?_append_left hi, h]

/-- a text is a beginning of another exactly if its encoding is -/
theorem utf8_extend {cs cs' : List Char} {p : List UInt8} (h : utf8 cs ++ p = utf8 cs') : ∃ ds, cs' = cs ++ ds ∧ p = utf8 ds := by
  induction cs generalizing cs' with
  | nil => exact ⟨cs', rfl, h⟩
  | cons ch cs ih =>
    cases cs' with
    | nil =>
      exact absurd (List.append_eq_nil_iff.1 (List.append_eq_nil_iff.1 h).1).1 (encode_ne_nil ch)
    | cons ch' cs' =>
      have h' : String.utf8EncodeChar ch ++ (utf8 cs ++ p) = String.utf8EncodeChar ch' ++ utf8 cs' := by
        rw [← List.append_assoc]; exact h
      obtain ⟨rfl, h2⟩ := prefix_free h'
      obtain ⟨ds, rfl, hd⟩ := ih h2
      exact ⟨ds, rfl, hd⟩

theorem utf8_nil {cs : List Char} (h : utf8 cs = []) : cs = [] := by
  cases cs with
  | nil => rfl
  | cons ch cs => exact absurd (List.append_eq_nil_iff.1 h).1 (encode_ne_nil ch)

theorem utf8_inj {cs cs' : List Char} (h : utf8 cs = utf8 cs') : cs = cs' := by
  obtain ⟨ds, rfl, hd⟩ := utf8_extend (p := []) ((List.append_nil _).trans h)
  rw [utf8_nil hd.symm, List.append_nil]

/-- a format whose derivations are those of texts over some characters -/
structure ReadsText (m : Module) (f : Format) (P : Char → Prop) where
  L : Scope Format → List UInt8 → Value → Prop
  reads : Grammar.Reads m f L
  value : ∀ s u v, L s u v → ∃ cs, (∀ ch ∈ cs, P ch) ∧ u = utf8 cs ∧ IsText v cs
  found : ∀ s cs, (∀ ch ∈ cs, P ch) → ∃ v, L s (utf8 cs) v
  words : ∀ u, Word m f u ↔ ∃ cs, (∀ ch ∈ cs, P ch) ∧ u = utf8 cs
  total : Total m f

variable {m : Module} {f : Format} {P : Char → Prop}

theorem Reads1.repeat (h : Reads1 m f P) : Nonempty (ReadsText m (.repeat_ f) P) := by
  refine ⟨_, reads_repeat h.reads, ?_, ?_, ?_, total_repeat h.total⟩
  · rintro s u _ ⟨vs, h1, rfl⟩
    induction h1 with
    | nil => exact ⟨[], by simp, rfl, [], rfl, rfl⟩
    | cons h2 _ ih =>
      obtain ⟨cs, h3, rfl, _, he, h4⟩ := ih
      cases he
      obtain ⟨ch, h5, rfl, h6⟩ := h.value _ _ _ h2
      refine ⟨ch :: cs, ?_, rfl, _, rfl, by rw [List.map_cons, List.map_cons, h4, h6]⟩
      intro x hx
      rcases List.mem_cons.1 hx with rfl | hx
      · exact h5
      · exact h3 x hx
  · intro s cs hcs
    have : ∃ vs, Pieces (h.L s) (utf8 cs) vs := by
      induction cs with
      | nil => exact ⟨[], .nil⟩
      | cons ch cs ih =>
        obtain ⟨vs, h1⟩ := ih fun x hx => hcs x (.tail _ hx)
        obtain ⟨v, h2⟩ := h.found s ch (hcs ch (.head _))
        exact ⟨v :: vs, .cons h2 h1⟩
    obtain ⟨vs, h1⟩ := this
    exact ⟨_, vs, h1, rfl⟩
  · intro u
    constructor
    · intro h'
      cases h' with
      | @repeat_ _ n _ hp =>
        induction n generalizing u with
        | zero => cases hp; exact ⟨[], by simp, rfl⟩
        | succ n ih =>
          obtain ⟨x, y, rfl, h1, h2⟩ := power_succ.1 hp
          obtain ⟨cs, h3, rfl⟩ := ih _ h2
          obtain ⟨ch, h5, rfl⟩ := (h.words x).1 h1
          refine ⟨ch :: cs, ?_, rfl⟩
          intro x hx
          rcases List.mem_cons.1 hx with rfl | hx
          · exact h5
          · exact h3 x hx
    · rintro ⟨cs, hcs, rfl⟩
      have : Power m f cs.length (utf8 cs) := by
        induction cs with
        | nil => exact .zero
        | cons ch cs ih => exact power_succ.2 ⟨_, _, rfl, (h.words _).2 ⟨ch, hcs ch (.head _), rfl⟩, ih fun x hx => hcs x (.tail _ hx)⟩
      exact .repeat_ this

theorem ReadsText.item {l : Nat} (hi : m.items[l]? = some ⟨[], [], f⟩) (h : ReadsText m f P) :
    Nonempty (ReadsText m (.itemVar l [] []) P) :=
  ⟨_, reads_item hi h.reads, fun _ u v hv => h.value _ u v hv, fun _ ch hc => h.found _ ch hc, fun u => spells_item hi h.words u,
    total_item hi h.total⟩

section
variable (pre post : List Item)

theorem at_0 : (within pre post).items[pre.length]? = some ⟨[], [], utf8Tail⟩ := item_at pre post (i := 0) rfl

theorem reads_nz : Nonempty (Reads1 (within pre post) (.itemVar (pre.length + 1) [] []) fun ch => ch ≠ '\x00') :=
  (char_nz (at_0 pre post)).elim (Reads1.item (item_at pre post (i := 1) rfl))

theorem reads_char : Nonempty (Reads1 (within pre post) (.itemVar (pre.length + 2) [] []) fun _ => True) :=
  (char_any (at_0 pre post) (item_at pre post (i := 1) rfl)).elim (Reads1.item (item_at pre post (i := 2) rfl))

theorem reads_zstring : Nonempty (ReadsText (within pre post) (zstring pre.length) fun ch => ch ≠ '\x00') :=
  (reads_nz pre post).elim fun h => h.repeat.elim (ReadsText.item (item_at pre post (i := 3) rfl))

theorem reads_string : Nonempty (ReadsText (within pre post) (string pre.length) fun _ => True) :=
  (reads_char pre post).elim fun h => h.repeat.elim fun h => (h.item (item_at pre post (i := 4) rfl)).elim
    (ReadsText.item (item_at pre post (i := 5) rfl))

/-! ## In every module and at every place of a format -/

/-- Wherever the string format is used in a format, what it derives are the encodings of texts at the place it starts,
with the characters of the text as value: no other bytes, and no other value. -/
theorem C54_derives (rej : Format → Scope Format → ReadCtxt → Prop) (s : Scope Format) (c c' : ReadCtxt) (v : Value) (k : Nat)
    (h : Parses (within pre post) rej (string pre.length) s c v c' k) :
    ∃ cs rest, c.input.drop c.offset = utf8 cs ++ rest ∧ IsText v cs ∧
      c' = ⟨c.input, c.offset + (utf8 cs).length⟩ ∧ k = 0 := by
  obtain ⟨t⟩ := reads_string pre post
  obtain ⟨u, rest, h1, h2, h3, h4⟩ := (t.reads ..).1 h
  obtain ⟨cs, _, rfl, h5⟩ := t.value _ _ _ h2
  exact ⟨cs, rest, h1, h5, h3, h4⟩

/-- Every text that is encoded at the place is derived. -/
theorem C54_derived (rej : Format → Scope Format → ReadCtxt → Prop) (s : Scope Format) (c : ReadCtxt) (cs : List Char) (rest : List UInt8)
    (h : c.input.drop c.offset = utf8 cs ++ rest) :
    ∃ v, Parses (within pre post) rej (string pre.length) s c v ⟨c.input, c.offset + (utf8 cs).length⟩ 0 ∧ IsText v cs := by
  obtain ⟨t⟩ := reads_string pre post
  obtain ⟨v, hv⟩ := t.found s cs fun _ _ => trivial
  have hp := (t.reads rej s c v _ 0).2 ⟨_, rest, h, hv, rfl, rfl⟩
  obtain ⟨cs', _, he, h5⟩ := t.value _ _ _ hv
  refine ⟨v, hp, ?_⟩
  have : cs = cs' := utf8_inj he
  rwa [this]

/-- The same for the format of texts without NUL. -/
theorem C54_zderives (rej : Format → Scope Format → ReadCtxt → Prop) (s : Scope Format) (c c' : ReadCtxt) (v : Value) (k : Nat)
    (h : Parses (within pre post) rej (zstring pre.length) s c v c' k) :
    ∃ cs rest, '\x00' ∉ cs ∧ c.input.drop c.offset = utf8 cs ++ rest ∧ IsText v cs ∧
      c' = ⟨c.input, c.offset + (utf8 cs).length⟩ ∧ k = 0 := by
  obtain ⟨t⟩ := reads_zstring pre post
  obtain ⟨u, rest, h1, h2, h3, h4⟩ := (t.reads ..).1 h
  obtain ⟨cs, h0, rfl, h5⟩ := t.value _ _ _ h2
  exact ⟨cs, rest, fun h => h0 _ h rfl, h1, h5, h3, h4⟩

theorem C54_zderived (rej : Format → Scope Format → ReadCtxt → Prop) (s : Scope Format) (c : ReadCtxt) (cs : List Char) (rest : List UInt8)
    (h0 : '\x00' ∉ cs) (h : c.input.drop c.offset = utf8 cs ++ rest) :
    ∃ v, Parses (within pre post) rej (zstring pre.length) s c v ⟨c.input, c.offset + (utf8 cs).length⟩ 0 ∧ IsText v cs := by
  obtain ⟨t⟩ := reads_zstring pre post
  obtain ⟨v, hv⟩ := t.found s cs fun ch hc he => h0 (he ▸ hc)
  have hp := (t.reads rej s c v _ 0).2 ⟨_, rest, h, hv, rfl, rfl⟩
  obtain ⟨cs', _, he, h5⟩ := t.value _ _ _ hv
  refine ⟨v, hp, ?_⟩
  have : cs = cs' := utf8_inj he
  rwa [this]

/-- Whatever else the module contains, and however the decoder is compiled: when decoding a string succeeds, the bytes
that were taken are the UTF-8 encoding of a text, the value is the sequence of its characters, and nothing was logged. -/
theorem C54_sound [DecidableEq Next] (o : BuildOpts) (cfuel : Nat) (prog : List Decoder)
    (hp : compileProgram (within pre post) o cfuel (string pre.length) = .ok prog) (fuel : Nat) (c : ReadCtxt) (w : Parsed)
    (h : Decoder.run (env o prog) fuel c = .ok w) :
    ∃ cs rest, c.input.drop c.offset = utf8 cs ++ rest ∧ IsText w.value.1 cs ∧
      w.value.2 = ⟨c.input, c.offset + (utf8 cs).length⟩ ∧ w.errs = [] := by
  obtain ⟨M, hM⟩ := C11_sound_partial _ o cfuel _ prog hp fuel c w h
  obtain ⟨cs, rest, h1, h2, h3, h4⟩ := C54_derives pre post _ _ _ _ _ _ hM
  exact ⟨cs, rest, h1, h2, h3, List.length_eq_zero_iff.1 h4⟩

theorem C54_zsound [DecidableEq Next] (o : BuildOpts) (cfuel : Nat) (prog : List Decoder)
    (hp : compileProgram (within pre post) o cfuel (zstring pre.length) = .ok prog) (fuel : Nat) (c : ReadCtxt) (w : Parsed)
    (h : Decoder.run (env o prog) fuel c = .ok w) :
    ∃ cs rest, '\x00' ∉ cs ∧ c.input.drop c.offset = utf8 cs ++ rest ∧ IsText w.value.1 cs ∧
      w.value.2 = ⟨c.input, c.offset + (utf8 cs).length⟩ ∧ w.errs = [] := by
  obtain ⟨M, hM⟩ := C11_sound_partial _ o cfuel _ prog hp fuel c w h
  obtain ⟨cs, rest, h0, h1, h2, h3, h4⟩ := C54_zderives pre post _ _ _ _ _ _ hM
  exact ⟨cs, rest, h0, h1, h2, h3, List.length_eq_zero_iff.1 h4⟩

end

/-! ## The text format on its own -/

/-- the module that contains nothing but the text formats -/
def alone : Module := ⟨items 0⟩

theorem alone_eq : alone = within [] [] := rfl

private def E0 : Nat → Bool := fun _ => false

theorem alone_plain : alone.Plain E0 := by
  intro i it h
  have b : ∀ lo hi : UInt8, lo ≤ hi → ∃ b, (ByteSet.fromRangeInclusive lo hi).contains b = true :=
    fun lo hi h => ⟨lo, (ByteSet.C01_contains_fromRangeInclusive lo hi lo).2 ⟨UInt8.le_refl _, h⟩⟩
  have b1 : ∀ x : UInt8, ∃ b, (ByteSet.fromIter [x]).contains b = true :=
    fun x => ⟨x, (ByteSet.C01_contains_fromIter _ _).2 (.head _)⟩
  match i with
  | 0 => cases h; simp only [utf8Tail, dropMsb, byteIn, Format.Plain]; exact b _ _ (by decide)
  | 1 =>
    cases h
    simp only [utf8CharNz, utf81, utf82, utf83, utf84, dropMsb, byteIn, isByte, tail, Format.Plain, Format.EachPlain, Format.FieldsPlain, E0]
    refine ⟨by simp, ⟨1, by decide +kernel⟩, ⟨b _ _ (by decide), by decide, trivial⟩,
      ⟨by simp, ⟨b1 _, b _ _ (by decide), by decide, trivial⟩, ⟨b _ _ (by decide), by decide, by decide, trivial⟩,
        ⟨b1 _, b _ _ (by decide), by decide, trivial⟩, ⟨b _ _ (by decide), by decide, by decide, trivial⟩, trivial⟩,
      ⟨by simp, ⟨b1 _, b _ _ (by decide), by decide, by decide, trivial⟩, ⟨b _ _ (by decide), by decide, by decide, by decide, trivial⟩,
        ⟨b1 _, b _ _ (by decide), by decide, by decide, trivial⟩, trivial⟩, trivial⟩
  | 2 =>
    cases h
    simp only [utf8Char, isByte, Format.Plain, Format.EachPlain, E0]
    exact ⟨by simp, b1 _, by decide, trivial⟩
  | 3 => cases h; simp only [Format.Plain, E0]; decide
  | 4 => cases h; simp only [Format.Plain, E0]; decide
  | 5 => cases h; simp only [Format.Plain, E0]; decide
  | i + 6 => simp [alone, items] at h

theorem free_1 (h : Reads1 m f P) : PrefixFree m f := by
  intro u p h1 h2
  obtain ⟨ch, _, rfl⟩ := (h.words _).1 h1
  obtain ⟨ch', _, h3⟩ := (h.words _).1 h2
  exact (prefix_free (p := p) (q := []) (by rw [h3, List.append_nil])).2

theorem regular_0 (o : BuildOpts) : (Format.itemVar 0 [] []).RegularHere alone E0 o true := by
  refine ⟨nofun, ?_⟩
  intro it h
  cases h
  refine .inr fun u p h1 h2 => ?_
  replace h1 := (spells_map (spells_byte _) _).1 h1
  replace h2 := (spells_map (spells_byte _) _).1 h2
  obtain ⟨x, rfl, _⟩ := h1
  obtain ⟨y, h, _⟩ := h2
  exact (List.cons.inj h).2

theorem regular_1 (o : BuildOpts) : (Format.itemVar 1 [] []).RegularHere alone E0 o true := by
  refine ⟨nofun, ?_⟩
  intro it h
  cases h
  exact .inr ((char_nz (m := alone) (l := 0) rfl).elim free_1)

theorem regular_2 (o : BuildOpts) : (Format.itemVar 2 [] []).RegularHere alone E0 o true := by
  refine ⟨nofun, ?_⟩
  intro it h
  cases h
  exact .inr ((char_any (m := alone) (l := 0) rfl rfl).elim free_1)

theorem regular_3 (o : BuildOpts) : (Format.itemVar 3 [] []).RegularHere alone E0 o true := by
  refine ⟨nofun, ?_⟩
  intro it h
  cases h
  exact .inl rfl

theorem regular_4 (o : BuildOpts) : (Format.itemVar 4 [] []).RegularHere alone E0 o true := by
  refine ⟨nofun, ?_⟩
  intro it h
  cases h
  exact .inl rfl

theorem regular_5 (o : BuildOpts) : (Format.itemVar 5 [] []).RegularHere alone E0 o true := by
  refine ⟨nofun, ?_⟩
  intro it h
  cases h
  exact .inl rfl

theorem alone_regular (o : BuildOpts) : alone.Regular E0 o true := by
  intro i it h
  have h0 := regular_0 o
  match i with
  | 0 => cases h; exact ⟨trivial, trivial⟩
  | 1 =>
    cases h
    simp only [utf8CharNz, utf81, utf82, utf83, utf84, dropMsb, byteIn, isByte, tail, Format.Regular, Format.Each, Format.EachOf, h0]
    simp [Format.RegularHere]
  | 2 =>
    cases h
    simp only [utf8Char, isByte, Format.Regular, Format.Each, Format.EachOf, regular_1 o]
    simp [Format.RegularHere]
  | 3 => cases h; exact ⟨trivial, regular_1 o⟩
  | 4 => cases h; exact ⟨trivial, regular_2 o⟩
  | 5 => cases h; exact regular_4 o
  | i + 6 => simp [alone, items] at h

theorem alone_moves : alone.LoopsMove := by
  intro i it h
  match i with
  | 0 => cases h; simp only [utf8Tail, dropMsb, byteIn, Format.LoopsMove]
  | 1 =>
    cases h
    simp only [utf8CharNz, utf81, utf82, utf83, utf84, dropMsb, byteIn, isByte, tail, Format.LoopsMove, Format.AllLoopsMove]
    decide
  | 2 => cases h; simp only [utf8Char, isByte, Format.LoopsMove, Format.AllLoopsMove]; decide
  | 3 => cases h; simp only [Format.LoopsMove]; refine ⟨?_, by decide⟩; simp [alone, items, utf8Tail, utf8Char, utf8CharNz, utf81, utf82, utf83, utf84, dropMsb, byteIn, isByte, tail,
      Format.BoundsSafe, Format.BoundsSafeWith, Format.AllBoundsSafe, Format.ItemBoundsSafe]
  | 4 => cases h; simp only [Format.LoopsMove]; refine ⟨?_, by decide⟩; simp [alone, items, utf8Tail, utf8Char, utf8CharNz, utf81, utf82, utf83, utf84, dropMsb, byteIn, isByte, tail,
      Format.BoundsSafe, Format.BoundsSafeWith, Format.AllBoundsSafe, Format.ItemBoundsSafe]
  | 5 => cases h; simp only [Format.LoopsMove]; decide
  | i + 6 => simp [alone, items] at h

/-- the byte is the first of the encoding of some character -/
def Lead (b : UInt8) : Prop := ∃ ch, (String.utf8EncodeChar ch).head? = some b

/-- these are the ASCII characters and the bytes from `C2` to `F4` -/
theorem lead_iff (b : UInt8) : Lead b ↔ b.toNat ≤ 0x7F ∨ (0xC2 ≤ b.toNat ∧ b.toNat ≤ 0xF4) := by
  constructor
  · rintro ⟨ch, hb⟩
    obtain ⟨⟨F, hF, hw⟩, _⟩ := encode_form ch
    cases he : String.utf8EncodeChar ch with
    | nil => exact absurd he (encode_ne_nil ch)
    | cons x xs =>
      rw [he] at hb hw
      cases hb
      have key : ∀ F ∈ forms, ∀ r ∈ F.head?, r.2 ≤ 0x7F ∨ (0xC2 ≤ r.1 ∧ r.2 ≤ 0xF4) := by decide
      cases F with
      | nil => cases hw
      | cons r rs =>
        obtain ⟨_, _, h, hr, _⟩ := hw
        cases h
        have := key _ hF r rfl
        omega
  · intro h
    have fill : ∀ rs : List (Nat × Nat), (∀ r ∈ rs, r.1 ≤ r.2 ∧ r.2 < 256) → ∃ v, Within rs v := by
      intro rs
      induction rs with
      | nil => intro _; exact ⟨[], rfl⟩
      | cons r rs ih =>
        intro hr
        obtain ⟨v, hv⟩ := ih fun x hx => hr x (.tail _ hx)
        have hr := hr r (.head _)
        refine ⟨UInt8.ofNat r.1 :: v, _, _, rfl, ?_, hv⟩
        rw [UInt8.toNat_ofNat_of_lt' (show r.1 < 256 by omega)]
        omega
    have key : ∀ r rs, r :: rs ∈ forms → r.1 ≤ b.toNat ∧ b.toNat ≤ r.2 → Lead b := by
      intro r rs hF hr
      have hall : ∀ F ∈ forms, ∀ r ∈ F, r.1 ≤ r.2 ∧ r.2 < 256 := by decide
      obtain ⟨v, hv⟩ := fill rs fun x hx => hall _ hF x (.tail _ hx)
      refine ⟨Char.ofNat (decode (b :: v)), ?_⟩
      rw [(form_encode hF (u := b :: v) ⟨b, v, rfl, hr, hv⟩).2]
      rfl
    have hz : b.toNat = 0 ∨ (1 ≤ b.toNat ∧ b.toNat ≤ 0x7F) ∨ (0xC2 ≤ b.toNat ∧ b.toNat ≤ 0xDF) ∨ (0xE0 ≤ b.toNat ∧ b.toNat ≤ 0xE0) ∨
        (0xE1 ≤ b.toNat ∧ b.toNat ≤ 0xEC) ∨ (0xED ≤ b.toNat ∧ b.toNat ≤ 0xED) ∨ (0xEE ≤ b.toNat ∧ b.toNat ≤ 0xEF) ∨
        (0xF0 ≤ b.toNat ∧ b.toNat ≤ 0xF0) ∨ (0xF1 ≤ b.toNat ∧ b.toNat ≤ 0xF3) ∨ (0xF4 ≤ b.toNat ∧ b.toNat ≤ 0xF4) := by omega
    rcases hz with h | h | h | h | h | h | h | h | h | h
    · exact key (0, 0) _ (.head _) (by omega)
    all_goals exact key (_, _) _ (by unfold forms; repeat (first | exact .head _ | apply List.Mem.tail)) h

section
variable [DecidableEq Next] (o : BuildOpts) (ho : o.ord.Valid) (cfuel : Nat) (prog : List Decoder)
include ho

/-- Every text is decoded from its encoding. -/
theorem C54_whole (hp : compileProgram alone o cfuel (string 0) = .ok prog) (c : ReadCtxt) (cs : List Char)
    (hc : c.input.drop c.offset = utf8 cs) (hi : c.Inside) :
    ∃ N w, IsText w.value.1 cs ∧ w.value.2 = ⟨c.input, c.input.length⟩ ∧ w.errs = [] ∧
      ∀ n, N ≤ n → Decoder.run (env o prog) n c = .ok w := by
  obtain ⟨v, h1, h2⟩ := C54_derived [] [] (fun _ _ _ => False) .empty c cs [] (by rw [hc, List.append_nil])
  have hl : c.offset + (utf8 cs).length = c.input.length := by
    rw [← hc, List.length_drop]
    exact Nat.add_sub_of_le hi
  obtain ⟨N, w, h3, h4, h5⟩ := C12_whole_partial alone E0 o true alone_plain (alone_regular o) ho cfuel (string 0)
    (by simp only [string, Format.Plain, E0]; decide) (regular_5 o) prog hp c _ v 0 h1 (.inl rfl) (Nat.le_of_eq hl.symm)
  refine ⟨N, w, by rw [h3]; exact h2, by rw [h3, hl], List.length_eq_zero_iff.1 h4, h5⟩

/-- the same for the strings without NUL characters -/
theorem C54_zwhole (hp : compileProgram alone o cfuel (zstring 0) = .ok prog) (c : ReadCtxt) (cs : List Char)
    (h0 : '\x00' ∉ cs) (hc : c.input.drop c.offset = utf8 cs) (hi : c.Inside) :
    ∃ N w, IsText w.value.1 cs ∧ w.value.2 = ⟨c.input, c.input.length⟩ ∧ w.errs = [] ∧
      ∀ n, N ≤ n → Decoder.run (env o prog) n c = .ok w := by
  obtain ⟨v, h1, h2⟩ := C54_zderived [] [] (fun _ _ _ => False) .empty c cs [] h0 (by rw [hc, List.append_nil])
  have hl : c.offset + (utf8 cs).length = c.input.length := by
    rw [← hc, List.length_drop]
    exact Nat.add_sub_of_le hi
  obtain ⟨N, w, h3, h4, h5⟩ := C12_whole_partial alone E0 o true alone_plain (alone_regular o) ho cfuel (zstring 0)
    (by simp only [zstring, Format.Plain, E0]; decide) (regular_3 o) prog hp c _ v 0 h1 (.inl rfl) (Nat.le_of_eq hl.symm)
  refine ⟨N, w, by rw [h3]; exact h2, by rw [h3, hl], List.length_eq_zero_iff.1 h4, h5⟩

/-- Text is decoded up to a byte that begins no character. -/
theorem C54_stops (hp : compileProgram alone o cfuel (string 0) = .ok prog) (c : ReadCtxt) (cs : List Char) (rest : List UInt8)
    (hc : c.input.drop c.offset = utf8 cs ++ rest) (hr : ∀ b, rest.head? = some b → ¬ Lead b) :
    ∃ N w, IsText w.value.1 cs ∧ w.value.2 = ⟨c.input, c.offset + (utf8 cs).length⟩ ∧ w.errs = [] ∧
      ∀ n, N ≤ n → Decoder.run (env o prog) n c = .ok w := by
  obtain ⟨v, h1, h2⟩ := C54_derived [] [] (fun _ _ _ => False) .empty c cs rest hc
  obtain ⟨t⟩ := reads_string [] []
  obtain ⟨N, w, h3, h4, h5⟩ := C12_complete_partial alone E0 o true alone_plain (alone_regular o) ho cfuel (string 0)
    (by simp only [string, Format.Plain, E0]; decide) (regular_5 o) prog hp c _ v 0 h1 (.inl rfl) (by
      rintro b hb ⟨z, hz⟩
      obtain ⟨cs', _, hz⟩ := (t.words _).1 hz
      have hd := drop_step hc
      dsimp only at hb
      rw [← List.head?_drop, hd] at hb
      rw [hc, Nat.add_sub_cancel_left, List.take_left, List.append_assoc] at hz
      obtain ⟨ds, _, hds⟩ := utf8_extend hz
      cases ds with
      | nil => cases hds
      | cons ch ds =>
        refine hr b hb ⟨ch, ?_⟩
        have := congrArg List.head? hds
        rw [utf8, List.flatMap_cons, List.head?_append] at this
        cases he : String.utf8EncodeChar ch with
        | nil => exact absurd he (encode_ne_nil ch)
        | cons x xs => rw [he] at this; exact this.symm)
  exact ⟨N, w, by rw [h3]; exact h2, by rw [h3], List.length_eq_zero_iff.1 h4, h5⟩

/-- Decoding a string always comes to an end, without a panic.  It succeeds exactly if the input is UTF-8 up to its end or
up to a byte that begins no character; then the value is the text and nothing was logged.  In particular it fails on a
character that is begun and not completed. -/
theorem C54_exact (hfuel : 6 ≤ o.fuel) (hp : compileProgram alone o cfuel (string 0) = .ok prog) (c : ReadCtxt) (hi : c.Inside) :
    ∃ N, (∀ n, N ≤ n → Decoder.run (env o prog) n c = Decoder.run (env o prog) N c) ∧
      ((∃ w cs rest, Decoder.run (env o prog) N c = .ok w ∧ c.input.drop c.offset = utf8 cs ++ rest ∧
          (∀ b, rest.head? = some b → ¬ Lead b) ∧ IsText w.value.1 cs ∧
          w.value.2 = ⟨c.input, c.offset + (utf8 cs).length⟩ ∧ w.errs = []) ∨
        (∃ e, Decoder.run (env o prog) N c = .err e) ∧
          ¬ ∃ cs rest, c.input.drop c.offset = utf8 cs ++ rest ∧ ∀ b, rest.head? = some b → ¬ Lead b) := by
  obtain ⟨N, h1, h2⟩ := C14_terminates_partial alone alone_moves o ho hfuel cfuel (string 0)
    (by simp only [string, Format.LoopsMove]; decide) prog hp c hi
  refine ⟨N, h2, ?_⟩
  have hnp := C55_no_panic_partial alone o ho cfuel (string 0) prog hp c
    ((reads_string [] []).elim fun t => t.total _ _ _) N
  cases hrun : Decoder.run (env o prog) N c with
  | fuel => exact absurd hrun h1
  | panic => exact absurd hrun hnp
  | ok w =>
    left
    obtain ⟨cs, rest, h3, h4, h5, h6⟩ := C54_sound [] [] o cfuel prog hp N c w hrun
    refine ⟨w, cs, rest, rfl, h3, ?_, h4, h5, h6⟩
    rintro b hb ⟨ch, hch⟩
    obtain ⟨t⟩ := reads_char [] []
    refine C12_munch alone E0 alone_plain o ho cfuel (string 0) (.itemVar 2 [] []) (by simp only [string, Format.Plain, E0]; decide)
      (.item (it := ⟨[], [], .itemVar 4 [] []⟩) rfl (.item (it := ⟨[], [], .repeat_ (.itemVar 2 [] [])⟩) rfl .repeat_)) prog hp N c w hrun b ?_ ?_
    · rw [h5]
      dsimp only
      rw [← List.head?_drop, drop_step h3, hb]
    · cases he : String.utf8EncodeChar ch with
      | nil => exact absurd he (encode_ne_nil ch)
      | cons x xs =>
        rw [he] at hch
        cases hch
        exact ⟨xs, (t.words _).2 ⟨ch, trivial, he.symm⟩⟩
  | err e =>
    right
    refine ⟨⟨e, rfl⟩, ?_⟩
    rintro ⟨cs, rest, h3, h4⟩
    obtain ⟨N', w, _, _, _, h5⟩ := C54_stops o ho cfuel prog hp c cs rest h3 h4
    have := (h5 (max N N') (Nat.le_max_right _ _)).symm.trans ((h2 _ (Nat.le_max_left _ _)).trans hrun)
    cases this

end

/-! ## A case that meets the hypotheses -/

/-- equality of what follows, computable where nothing follows -/
private noncomputable def decNext : DecidableEq Next
  | .empty, .empty => .isTrue rfl
  | .empty, .cat _ _ => .isFalse nofun
  | .empty, .sequence _ _ => .isFalse nofun
  | .empty, .repeat_ _ _ => .isFalse nofun
  | .cat _ _, .empty => .isFalse nofun
  | .sequence _ _, .empty => .isFalse nofun
  | .repeat_ _ _, .empty => .isFalse nofun
  | _, _ => Classical.propDecidable _

example : ∃ (_ : DecidableEq Next) (prog : List Decoder), compileProgram alone ⟨fun _ l => l, 20⟩ 20 (string 0) = .ok prog :=
  ⟨decNext, _, rfl⟩

/-- `aé€😀` and a stray continuation byte -/
example : ([0x61, 0xC3, 0xA9, 0xE2, 0x82, 0xAC, 0xF0, 0x9F, 0x98, 0x80, 0x80] : List UInt8) = utf8 ['a', 'é', '€', '😀'] ++ [0x80] := by
  decide +kernel

example : ¬ Lead 0x80 := by rw [lead_iff]; decide

/-- an encoded surrogate: the text ends before it, but `ED` begins other characters, so decoding fails -/
example : ¬ ∃ cs rest, ([0x61, 0xED, 0xA0, 0x80] : List UInt8) = utf8 cs ++ rest ∧ ∀ b, rest.head? = some b → ¬ Lead b := by
  have ha : ([0x61] : List UInt8) = utf8 ['a'] := by decide +kernel
  rintro ⟨cs, rest, h, hr⟩
  cases cs with
  | nil =>
    obtain rfl : rest = [0x61, 0xED, 0xA0, 0x80] := h.symm
    exact hr 0x61 rfl ((lead_iff _).2 (by decide))
  | cons ch cs =>
    have h : String.utf8EncodeChar 'a' ++ [0xED, 0xA0, 0x80] = String.utf8EncodeChar ch ++ (utf8 cs ++ rest) := by
      rw [← List.append_assoc]; exact h
    obtain ⟨rfl, h'⟩ : 'a' = ch ∧ [0xED, 0xA0, 0x80] = utf8 cs ++ rest := prefix_free h
    clear h
    cases cs with
    | nil =>
      obtain rfl : rest = [0xED, 0xA0, 0x80] := h'.symm
      exact hr 0xED rfl ((lead_iff _).2 (by decide))
    | cons ch cs =>
      obtain ⟨⟨F, hF, hw⟩, _⟩ := encode_form ch
      have h : String.utf8EncodeChar ch ++ (utf8 cs ++ rest) = [0xED, 0xA0, 0x80] := by
        rw [← List.append_assoc]; exact h'.symm
      cases he : String.utf8EncodeChar ch with
      | nil => exact absurd he (encode_ne_nil ch)
      | cons x xs =>
        rw [he] at h hw
        have hx : x = 0xED := (List.cons.inj h).1
        replace h := (List.cons.inj h).2
        subst hx
        have key : ∀ F ∈ forms, ∀ r ∈ F.head?, r.1 ≤ 0xED → 0xED ≤ r.2 → ∀ r' ∈ F.tail.head?, r'.2 < 0xA0 := by decide
        have key' : ∀ F ∈ forms, ∀ r ∈ F.head?, r.1 ≤ 0xED → 0xED ≤ r.2 → F.tail ≠ [] := by decide
        cases F with
        | nil => cases hw
        | cons r rs =>
          obtain ⟨_, _, e, hr1, hw⟩ := hw
          cases e
          cases rs with
          | nil => exact key' _ hF r rfl hr1.1 hr1.2 rfl
          | cons r' rs =>
            obtain ⟨y, ys, rfl, hy, _⟩ := hw
            have hy' : y = 0xA0 := (List.cons.inj h).1
            subst hy'
            have := key _ hF r rfl hr1.1 hr1.2 r' rfl
            have h160 : (0xA0 : UInt8).toNat = 0xA0 := rfl
            omega

end Text
end Doodle
