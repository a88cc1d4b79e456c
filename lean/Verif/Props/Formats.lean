import Verif.Lemmas.Formats
import Verif.Props.Sound
import Verif.Props.Complete
import Verif.Props.Terminate
import Verif.Props.Munch
import Verif.Props.Safe

/-! # C62: small formats that are shipped decode exactly their documents

The formats are those that each `main` of `doodle-formats/src/format` adds to a module.  The documents are specified in
`Verif.Spec.Formats`. -/

namespace Doodle
namespace Formats

open Grammar Compiler Helper

/-- no item may stand only at the end -/
private def E0 : Nat → Bool := fun _ => false

/-- the module in which a format has found the items `pre` when it added its own, with the items `post` added after it -/
def within (items : Nat → List Item) (pre post : List Item) : Module := ⟨pre ++ items pre.length ++ post⟩

theorem item_at (items : Nat → List Item) (pre post : List Item) {i : Nat} {it : Item} (h : (items pre.length)[i]? = some it) :
    (within items pre post).items[pre.length + i]? = some it := by
  have hi : i < (items pre.length).length := (List.getElem?_eq_some_iff.1 h).1
  show (pre ++ items pre.length ++ post)[_]? = _
  rw [List.append_assoc, List.getElem?_append_right (Nat.le_add_right _ _), Nat.add_sub_cancel_left,
    List.getElem?_append_left hi, h]

/-! ## Numbers -/

namespace Numbers

theorem made_document {es : List Entry} (h : ∀ e ∈ es, e.Valid) : IsDocument (.record [("values", .seq (.strict (es.map made)))]) es := by
  refine ⟨_, rfl, ?_⟩
  rw [List.map_map]
  refine List.map_congr_left fun e he => ?_
  show some (name e.signed e.width, (raw e.signed e.width e.bytes).coerceMapped) = _
  rw [raw_value e (h e he)]

/-- two documents, one of which begins the other -/
theorem document_extend {es es' : List Entry} (h : ∀ e ∈ es, e.Valid) (h' : ∀ e ∈ es', e.Valid) {p : List UInt8}
    (hd : document es ++ p = document es') : ∃ ds, es' = es ++ ds ∧ p = ds.flatMap Entry.encode := by
  replace hd : es.flatMap Entry.encode ++ p = es'.flatMap Entry.encode := by
    unfold document at hd
    rw [List.append_assoc] at hd
    exact List.append_cancel_left hd
  induction es generalizing es' with
  | nil => exact ⟨es', rfl, hd⟩
  | cons e es ih =>
    cases es' with
    | nil => cases hd
    | cons e' es' =>
      rw [List.flatMap_cons, List.flatMap_cons, List.append_assoc] at hd
      obtain ⟨rfl, hd'⟩ := entry_prefix (h e (.head _)) (h' e' (.head _)) hd
      obtain ⟨ds, rfl, hp⟩ := ih (fun x hx => h x (.tail _ hx)) (fun x hx => h' x (.tail _ hx)) hd'
      exact ⟨ds, rfl, hp⟩

section
variable (pre post : List Item)

theorem main_reads : Grammar.Reads (within items pre post) (main pre.length) fun _ u v => ∃ es : List Entry, (∀ e ∈ es, e.Valid) ∧ u = document es ∧
    v = .record [("values", .seq (.strict (es.map made)))] :=
  reads_item (item_at items pre post (i := 1) rfl) (reads_numbers (item_at items pre post (i := 0) rfl))

theorem main_words : Spells (within items pre post) (main pre.length) fun u => ∃ es : List Entry, (∀ e ∈ es, e.Valid) ∧ u = document es :=
  spells_item (item_at items pre post (i := 1) rfl) (words_numbers (item_at items pre post (i := 0) rfl))

theorem main_total : Total (within items pre post) (main pre.length) :=
  total_item (item_at items pre post (i := 1) rfl) (total_numbers (item_at items pre post (i := 0) rfl))

/-- Wherever the format is used, it describes the documents that begin at the place, with their entries as value: no other
bytes and no other value. -/
theorem C62_numbers_derives (rej : Format → Scope Format → ReadCtxt → Prop) (s : Scope Format) (c c' : ReadCtxt) (v : Value) (k : Nat)
    (h : Parses (within items pre post) rej (main pre.length) s c v c' k) :
    ∃ es rest, (∀ e ∈ es, e.Valid) ∧ c.input.drop c.offset = document es ++ rest ∧ IsDocument v es ∧
      c' = ⟨c.input, c.offset + (document es).length⟩ ∧ k = 0 := by
  obtain ⟨_, rest, h1, ⟨es, h2, rfl, rfl⟩, h3, h4⟩ := (main_reads pre post ..).1 h
  exact ⟨es, rest, h2, h1, made_document h2, h3, h4⟩

theorem C62_numbers_derived (rej : Format → Scope Format → ReadCtxt → Prop) (s : Scope Format) (c : ReadCtxt) (es : List Entry)
    (rest : List UInt8) (hes : ∀ e ∈ es, e.Valid) (h : c.input.drop c.offset = document es ++ rest) :
    ∃ v, Parses (within items pre post) rej (main pre.length) s c v ⟨c.input, c.offset + (document es).length⟩ 0 ∧ IsDocument v es :=
  ⟨_, (main_reads pre post rej s c _ _ 0).2 ⟨_, rest, h, ⟨es, hes, rfl, rfl⟩, rfl, rfl⟩, made_document hes⟩

/-- Whatever else the module contains, and however the decoder is compiled: when decoding succeeds, the bytes that were taken
are a document, the value has its entries, and nothing was logged. -/
theorem C62_numbers_sound [DecidableEq Next] (o : BuildOpts) (cfuel : Nat) (prog : List Decoder)
    (hp : compileProgram (within items pre post) o cfuel (main pre.length) = .ok prog) (fuel : Nat) (c : ReadCtxt) (w : Parsed)
    (h : Decoder.run (env o prog) fuel c = .ok w) :
    ∃ es rest, (∀ e ∈ es, e.Valid) ∧ c.input.drop c.offset = document es ++ rest ∧ IsDocument w.value.1 es ∧
      w.value.2 = ⟨c.input, c.offset + (document es).length⟩ ∧ w.errs = [] := by
  obtain ⟨M, hM⟩ := C11_sound_partial _ o cfuel _ prog hp fuel c w h
  obtain ⟨es, rest, h0, h1, h2, h3, h4⟩ := C62_numbers_derives pre post _ _ _ _ _ _ hM
  exact ⟨es, rest, h0, h1, h2, h3, List.length_eq_zero_iff.1 h4⟩

end

/-- the module that contains nothing but this format -/
def alone : Module := ⟨items 0⟩

theorem isByte_plain (m : Module) (E : Nat → Bool) (k : Nat) (last : Bool) (b : UInt8) : (isByte b).Plain m E k last :=
  ⟨b, (ByteSet.C01_contains_fromIter _ _).2 (.head _)⟩

theorem full_plain (m : Module) (E : Nat → Bool) (k : Nat) (last : Bool) : (Format.byte .full).Plain m E k last :=
  ⟨0, full_contains 0⟩

theorem alone_plain : alone.Plain E0 := by
  intro i it h
  match i with
  | 0 =>
    cases h
    have h1 : ∀ (sg : Bool) (w : Num.BitWidth) (last : Bool), (body sg w).Plain alone E0 0 last := by
      intro sg w last
      cases sg <;> cases w <;>
        simp only [body, signedWord, mapNumeric, u8, word, Num.BitWidth.bits, List.replicate, Format.Plain, Format.FieldsPlain, reduceCtorEq,
          if_true, if_false] <;> simp [full_contains]
    have h2 : ∀ ks : List (Bool × Num.BitWidth), Format.EachPlain alone E0 0 false (ks.map alt) := by
      intro ks
      induction ks with
      | nil => exact trivial
      | cons p ks ih => exact ⟨⟨isByte_plain _ _ _ _ _, h1 _ _ _⟩, ih⟩
    exact ⟨by simp, h2 kinds⟩
  | 1 =>
    cases h
    rw [show (⟨[], [], numbers 0⟩ : Item).format = numbers 0 from rfl, numbers_eq]
    exact ⟨⟨isByte_plain _ _ _ _ _, isByte_plain _ _ _ _ _, isByte_plain _ _ _ _ _, isByte_plain _ _ _ _ _, trivial⟩,
      ⟨by decide, by decide, nofun⟩, trivial⟩
  | i + 2 => simp [alone, items] at h

theorem tag_lt (sg : Bool) (w : Num.BitWidth) : (tag sg w).toNat < 8 := by
  cases sg <;> cases w <;> decide

theorem regular_0 (o : BuildOpts) : (Format.itemVar 0 [] []).RegularHere alone E0 o true := by
  refine ⟨nofun, ?_⟩
  intro it h
  cases h
  exact .inr value_free

theorem regular_1 (o : BuildOpts) : (Format.itemVar 1 [] []).RegularHere alone E0 o true := by
  refine ⟨nofun, ?_⟩
  intro it h
  cases h
  refine .inl ?_
  rw [show (⟨[], [], numbers 0⟩ : Item).format = numbers 0 from rfl, numbers_eq]
  rfl

theorem alone_regular (o : BuildOpts) : alone.Regular E0 o true := by
  intro i it h
  match i with
  | 0 =>
    cases h
    simp only [numValue, alts, signedWord, mapNumeric, isByte, u8, word, Num.BitWidth.bits, List.replicate, Format.Regular, Format.Each, Format.EachOf,
      List.map, reduceCtorEq, if_true, if_false, Nat.reduceDiv]
    simp [Format.RegularHere]
  | 1 =>
    cases h
    rw [show (⟨[], [], numbers 0⟩ : Item).format = numbers 0 from rfl, numbers_eq]
    exact ⟨trivial, trivial, ⟨trivial, trivial, trivial, trivial, trivial, trivial⟩, trivial, ⟨trivial, regular_0 o⟩, trivial⟩
  | i + 2 => simp [alone, items] at h

theorem alone_moves : alone.LoopsMove := by
  intro i it h
  match i with
  | 0 =>
    cases h
    simp [numValue, alts, signedWord, mapNumeric, isByte, u8, word, Num.BitWidth.bits, List.replicate, Format.LoopsMove, Format.AllLoopsMove]
  | 1 =>
    cases h
    rw [show (⟨[], [], numbers 0⟩ : Item).format = numbers 0 from rfl, numbers_eq]
    simp [alone, items, isBytes, magic, numValue, alts, signedWord, mapNumeric, isByte, u8, word, Num.BitWidth.bits, List.replicate, Format.LoopsMove, Format.AllLoopsMove,
      Format.BoundsSafe, Format.BoundsSafeWith, Format.AllBoundsSafe, Format.ItemBoundsSafe]
  | i + 2 => simp [alone, items] at h

section
variable [DecidableEq Next] (o : BuildOpts) (ho : o.ord.Valid) (cfuel : Nat) (prog : List Decoder)
include ho

/-- A document is decoded up to a byte that announces no entry. -/
theorem C62_numbers_found (hp : compileProgram alone o cfuel (main 0) = .ok prog) (c : ReadCtxt) (es : List Entry)
    (rest : List UInt8) (hes : ∀ e ∈ es, e.Valid) (hc : c.input.drop c.offset = document es ++ rest)
    (hr : ∀ b, rest.head? = some b → 8 ≤ b.toNat) :
    ∃ N w, IsDocument w.value.1 es ∧ w.value.2 = ⟨c.input, c.offset + (document es).length⟩ ∧ w.errs = [] ∧
      ∀ n, N ≤ n → Decoder.run (env o prog) n c = .ok w := by
  obtain ⟨v, h1, h2⟩ := C62_numbers_derived [] [] (fun _ _ _ => False) .empty c es rest hes hc
  obtain ⟨N, w, h3, h4, h5⟩ := C12_complete_partial alone E0 o true alone_plain (alone_regular o) ho cfuel (main 0)
    ⟨by decide, by decide, nofun⟩ (regular_1 o) prog hp c _ v 0 h1 (.inl rfl) (by
      rintro b hb ⟨z, hz⟩
      obtain ⟨es', hes', hz⟩ := (main_words [] [] _).1 hz
      have hd := drop_step hc
      dsimp only at hb
      rw [← List.head?_drop, hd] at hb
      rw [hc, Nat.add_sub_cancel_left, List.take_left, List.append_assoc] at hz
      obtain ⟨ds, _, hds⟩ := document_extend hes hes' hz
      cases ds with
      | nil => cases hds
      | cons e ds =>
        have hb' : b = tag e.signed e.width := (List.cons.inj hds).1
        have := hr b hb
        rw [hb'] at this
        exact absurd (tag_lt e.signed e.width) (by omega))
  exact ⟨N, w, by rw [h3]; exact h2, by rw [h3], List.length_eq_zero_iff.1 h4, h5⟩

/-- Decoding comes to an end on every input, without a panic.  It succeeds exactly if the input is a document up to its end or
up to a byte that announces no entry; then the value has the entries of the document, and nothing was logged. -/
theorem C62_numbers_exact (hfuel : 6 ≤ o.fuel) (hp : compileProgram alone o cfuel (main 0) = .ok prog) (c : ReadCtxt) (hi : c.Inside) :
    ∃ N, (∀ n, N ≤ n → Decoder.run (env o prog) n c = Decoder.run (env o prog) N c) ∧
      ((∃ w es rest, Decoder.run (env o prog) N c = .ok w ∧ (∀ e ∈ es, e.Valid) ∧ c.input.drop c.offset = document es ++ rest ∧
          (∀ b, rest.head? = some b → 8 ≤ b.toNat) ∧ IsDocument w.value.1 es ∧
          w.value.2 = ⟨c.input, c.offset + (document es).length⟩ ∧ w.errs = []) ∨
        (∃ e, Decoder.run (env o prog) N c = .err e) ∧
          ¬ ∃ es rest, (∀ e ∈ es, e.Valid) ∧ c.input.drop c.offset = document es ++ rest ∧ ∀ b, rest.head? = some b → 8 ≤ b.toNat) := by
  obtain ⟨N, h1, h2⟩ := C14_terminates_partial alone alone_moves o ho hfuel cfuel (main 0)
    (by simp only [main, Format.LoopsMove]; decide) prog hp c hi
  refine ⟨N, h2, ?_⟩
  have hnp := C55_no_panic_partial alone o ho cfuel (main 0) prog hp c (main_total [] [] _ _ _) N
  cases hrun : Decoder.run (env o prog) N c with
  | fuel => exact absurd hrun h1
  | panic => exact absurd hrun hnp
  | ok w =>
    left
    obtain ⟨es, rest, h0, h3, h4, h5, h6⟩ := C62_numbers_sound [] [] o cfuel prog hp N c w hrun
    refine ⟨w, es, rest, rfl, h0, h3, ?_, h4, h5, h6⟩
    intro b hb
    refine Classical.byContradiction fun hlt => ?_
    refine C12_munch alone E0 alone_plain o ho cfuel (main 0) (.itemVar 0 [] []) ⟨by decide, by decide, nofun⟩
      (.item (it := ⟨[], [], numbers 0⟩) rfl (by rw [show (⟨[], [], numbers 0⟩ : Item).format = numbers 0 from rfl, numbers_eq]; exact .hint (.monadSeq (.letCompute .repeat_)))) prog hp N c w hrun b ?_ ?_
    · rw [h5]
      dsimp only
      rw [← List.head?_drop, drop_step h3, hb]
    · have : ∃ sg w, b = tag sg w := by
        have h : b.toNat < 8 := by omega
        have : ∀ i : Fin 8, ∃ sg w, UInt8.ofNat i = tag sg w := by
          intro i
          match i with
          | 0 => exact ⟨false, .b8, rfl⟩
          | 1 => exact ⟨false, .b16, rfl⟩
          | 2 => exact ⟨false, .b32, rfl⟩
          | 3 => exact ⟨false, .b64, rfl⟩
          | 4 => exact ⟨true, .b8, rfl⟩
          | 5 => exact ⟨true, .b16, rfl⟩
          | 6 => exact ⟨true, .b32, rfl⟩
          | 7 => exact ⟨true, .b64, rfl⟩
        obtain ⟨sg, w, h'⟩ := this ⟨b.toNat, h⟩
        exact ⟨sg, w, by rw [← h']; simp⟩
      obtain ⟨sg, wd, rfl⟩ := this
      exact ⟨List.replicate (wd.bits / 8) 0, (spells_item (m := alone) (l := 0) rfl words_value _).2
        ⟨⟨sg, wd, List.replicate (wd.bits / 8) 0⟩, List.length_replicate, rfl⟩⟩
  | err e =>
    right
    refine ⟨⟨e, rfl⟩, ?_⟩
    rintro ⟨es, rest, h0, h3, h4⟩
    obtain ⟨N', w, _, _, _, h5⟩ := C62_numbers_found o ho cfuel prog hp c es rest h0 h3 h4
    have := (h5 (max N N') (Nat.le_max_right _ _)).symm.trans ((h2 _ (Nat.le_max_left _ _)).trans hrun)
    cases this

end

example : ∃ (_ : DecidableEq Next) (prog : List Decoder), compileProgram alone ⟨fun _ l => l, 20⟩ 20 (main 0) = .ok prog :=
  ⟨fun _ _ => Classical.propDecidable _, _, rfl⟩

/-- the numbers 258, -1 and 7 -/
private def sample : List Entry := [⟨false, .b16, [1, 2]⟩, ⟨true, .b8, [255]⟩, ⟨false, .b8, [7]⟩]

/-- a document, and a byte that announces no entry -/
example : (∀ e ∈ sample, e.Valid) ∧ ([78, 85, 77, 83, 1, 1, 2, 4, 255, 0, 7, 99] : List UInt8) = document sample ++ [99] := by
  refine ⟨?_, by decide +kernel⟩
  simp only [sample, List.mem_cons, List.not_mem_nil, or_false]
  rintro e (rfl | rfl | rfl) <;> rfl

example : Entry.value ⟨true, .b8, [255]⟩ = .numeric ⟨-1, .concrete ⟨true, .b8⟩⟩ := by
  simp only [Entry.value, if_true]
  congr 2

end Numbers

/-! ## Run-length encoding -/

namespace Rle

section
variable (pre post : List Item)

theorem main_reads : Grammar.Reads (within items pre post) (main pre.length) fun _ u v =>
    ∃ new rs, u = (if new then 1 else 0) :: encode rs ∧ v = made new rs :=
  reads_item (item_at items pre post (i := 4) rfl) (reads_rle (item_at items pre post (i := 0) rfl) (item_at items pre post (i := 1) rfl)
    (item_at items pre post (i := 2) rfl) (item_at items pre post (i := 3) rfl))

theorem main_total : Total (within items pre post) (main pre.length) :=
  total_item (item_at items pre post (i := 4) rfl) (total_rle (item_at items pre post (i := 0) rfl) (item_at items pre post (i := 1) rfl)
    (item_at items pre post (i := 2) rfl) (item_at items pre post (i := 3) rfl))

theorem made_expands (new : Bool) (rs : List (UInt8 × UInt8)) : Expands (made new rs) (if new then "new-style" else "old-style") rs := by
  cases new with
  | false => exact ⟨_, _, rfl, rfl⟩
  | true => exact ⟨_, _, rfl, rfl⟩

/-- Wherever the format is used, it describes a byte 0 or 1 and runs, and the value is what the runs stand for: no other bytes,
and no other value. -/
theorem C62_rle_derives (rej : Format → Scope Format → ReadCtxt → Prop) (s : Scope Format) (c c' : ReadCtxt) (v : Value) (k : Nat)
    (h : Parses (within items pre post) rej (main pre.length) s c v c' k) :
    ∃ (new : Bool) (rs : List (UInt8 × UInt8)) (rest : List UInt8), c.input.drop c.offset = (if new then 1 else 0) :: encode rs ++ rest ∧
      Expands v (if new then "new-style" else "old-style") rs ∧ c' = ⟨c.input, c.offset + (encode rs).length + 1⟩ ∧ k = 0 := by
  obtain ⟨_, rest, h1, ⟨new, rs, rfl, rfl⟩, h3, h4⟩ := (main_reads pre post ..).1 h
  exact ⟨new, rs, rest, h1, made_expands new rs, h3, h4⟩

theorem C62_rle_derived (rej : Format → Scope Format → ReadCtxt → Prop) (s : Scope Format) (c : ReadCtxt) (new : Bool)
    (rs : List (UInt8 × UInt8)) (rest : List UInt8) (h : c.input.drop c.offset = (if new then 1 else 0) :: encode rs ++ rest) :
    ∃ v, Parses (within items pre post) rej (main pre.length) s c v ⟨c.input, c.offset + (encode rs).length + 1⟩ 0 ∧
      Expands v (if new then "new-style" else "old-style") rs :=
  ⟨_, (main_reads pre post rej s c _ _ 0).2 ⟨_, rest, h, ⟨new, rs, rfl, rfl⟩, rfl, rfl⟩, made_expands new rs⟩

/-- Whatever else the module contains, and however the decoder is compiled: when decoding succeeds, the bytes that were taken are
a byte 0 or 1 and runs, the value is what the runs stand for, and nothing was logged. -/
theorem C62_rle_sound [DecidableEq Next] (o : BuildOpts) (cfuel : Nat) (prog : List Decoder)
    (hp : compileProgram (within items pre post) o cfuel (main pre.length) = .ok prog) (fuel : Nat) (c : ReadCtxt) (w : Parsed)
    (h : Decoder.run (env o prog) fuel c = .ok w) :
    ∃ (new : Bool) (rs : List (UInt8 × UInt8)) (rest : List UInt8), c.input.drop c.offset = (if new then 1 else 0) :: encode rs ++ rest ∧
      Expands w.value.1 (if new then "new-style" else "old-style") rs ∧
      w.value.2 = ⟨c.input, c.offset + (encode rs).length + 1⟩ ∧ w.errs = [] := by
  obtain ⟨M, hM⟩ := C11_sound_partial _ o cfuel _ prog hp fuel c w h
  obtain ⟨new, rs, rest, h1, h2, h3, h4⟩ := C62_rle_derives pre post _ _ _ _ _ _ hM
  exact ⟨new, rs, rest, h1, h2, h3, List.length_eq_zero_iff.1 h4⟩

/-- Decoding never panics, whatever the input. -/
theorem C62_rle_safe [DecidableEq Next] (o : BuildOpts) (ho : o.ord.Valid) (cfuel : Nat) (prog : List Decoder)
    (hp : compileProgram (within items pre post) o cfuel (main pre.length) = .ok prog) (fuel : Nat) (c : ReadCtxt) :
    Decoder.run (env o prog) fuel c ≠ .panic :=
  C55_no_panic_partial _ o ho cfuel _ prog hp c (main_total pre post _ _ _) fuel

end

/-- the module that contains nothing but this format -/
def alone : Module := ⟨items 0⟩

theorem alone_moves : alone.LoopsMove := by
  intro i it h
  match i with
  | 0 =>
    cases h
    rw [show (⟨[], [], oldRun⟩ : Item).format = oldRun from rfl, oldRun_eq]
    simp [runChain, u8, Format.LoopsMove]
  | 1 =>
    cases h
    rw [show (⟨[], [], oldStyle 0⟩ : Item).format = oldStyle 0 from rfl, oldStyle_eq]
    simp [alone, items, oldRun_eq, runChain, data, u8, Format.LoopsMove, Format.BoundsSafe, Format.BoundsSafeWith, Format.ItemBoundsSafe, Expr.SpineSafe]
  | 2 =>
    cases h
    rw [show (⟨[], [], newRun⟩ : Item).format = newRun from rfl, newRun_eq]
    simp [runChain, u8, Format.LoopsMove]
  | 3 =>
    cases h
    rw [show (⟨[], [], newStyle 2⟩ : Item).format = newStyle 2 from rfl, newStyle_eq]
    simp [alone, items, newRun_eq, runChain, data, u8, Format.LoopsMove, Format.BoundsSafe, Format.BoundsSafeWith, Format.ItemBoundsSafe, Expr.SpineSafe]
  | 4 =>
    cases h
    simp [rle, isByte, Format.LoopsMove, Format.AllLoopsMove]
  | i + 5 => simp [alone, items] at h

/-- Decoding comes to an end on every input. -/
theorem C62_rle_terminates [DecidableEq Next] (o : BuildOpts) (ho : o.ord.Valid) (hfuel : 6 ≤ o.fuel) (cfuel : Nat) (prog : List Decoder)
    (hp : compileProgram alone o cfuel (main 0) = .ok prog) (c : ReadCtxt) (hi : c.Inside) :
    ∃ N, Decoder.run (env o prog) N c ≠ .fuel ∧ ∀ n, N ≤ n → Decoder.run (env o prog) n c = Decoder.run (env o prog) N c :=
  C14_terminates_partial alone alone_moves o ho hfuel cfuel (main 0) (by simp only [main, Format.LoopsMove]; decide) prog hp c hi

set_option maxHeartbeats 2000000 in
/-- two `a`, in both styles -/
example : ∃ (_ : DecidableEq Next) (prog : List Decoder) (w w' : Parsed), compileProgram alone ⟨fun _ l => l, 20⟩ 20 (main 0) = .ok prog ∧
    Decoder.run (env ⟨fun _ l => l, 20⟩ prog) 20 ⟨[0, 2, 97], 0⟩ = .ok w ∧
    Decoder.run (env ⟨fun _ l => l, 20⟩ prog) 20 ⟨[1, 2, 97], 0⟩ = .ok w' :=
  ⟨fun _ _ => Classical.propDecidable _, _, _, _, rfl, rfl, rfl⟩

example : encode [(3, 97), (2, 98)] = [3, 97, 2, 98] ∧ expand [(3, 97), (2, 98)] = [97, 97, 97, 98, 98] := by decide

end Rle

/-! ## Unary numbers -/

namespace Peano

section
variable (pre post : List Item)

theorem main_reads : Grammar.Reads (within items pre post) (main pre.length) fun _ u v =>
    ∃ ns : List Nat, ns ≠ [] ∧ (∀ n ∈ ns, n ≤ 9) ∧ u = ns.flatMap encode ∧ v = .seq (.strict (ns.map made)) := by
  refine (reads_item (item_at items pre post (i := 1) rfl) (reads_repeat1 (reads_item (item_at items pre post (i := 0) rfl) reads_decimal))).congr
    fun s u v => ?_
  constructor
  · rintro ⟨vs, hp, h0, rfl⟩
    obtain ⟨ns, h1, rfl, rfl⟩ := pieces_made.1 hp
    exact ⟨ns, by rintro rfl; exact h0 rfl, h1, rfl, rfl⟩
  · rintro ⟨ns, h0, h1, rfl, rfl⟩
    exact ⟨_, pieces_made.2 ⟨ns, h1, rfl, rfl⟩, by simpa using h0, rfl⟩

theorem made_counts (ns : List Nat) : Counts (.seq (.strict (ns.map made))) ns :=
  ⟨_, rfl, by rw [List.map_map]; rfl⟩

/-- Wherever the format is used, it describes one number up to 9 or more, and the value is the sequence of these numbers. -/
theorem C62_peano_derives (rej : Format → Scope Format → ReadCtxt → Prop) (s : Scope Format) (c c' : ReadCtxt) (v : Value) (k : Nat)
    (h : Parses (within items pre post) rej (main pre.length) s c v c' k) :
    ∃ (ns : List Nat) (rest : List UInt8), ns ≠ [] ∧ (∀ n ∈ ns, n ≤ 9) ∧ c.input.drop c.offset = ns.flatMap encode ++ rest ∧
      Counts v ns ∧ c' = ⟨c.input, c.offset + (ns.flatMap encode).length⟩ ∧ k = 0 := by
  obtain ⟨_, rest, h1, ⟨ns, h0, h2, rfl, rfl⟩, h3, h4⟩ := (main_reads pre post ..).1 h
  exact ⟨ns, rest, h0, h2, h1, made_counts ns, h3, h4⟩

theorem C62_peano_derived (rej : Format → Scope Format → ReadCtxt → Prop) (s : Scope Format) (c : ReadCtxt) (ns : List Nat)
    (rest : List UInt8) (h0 : ns ≠ []) (h9 : ∀ n ∈ ns, n ≤ 9) (h : c.input.drop c.offset = ns.flatMap encode ++ rest) :
    ∃ v, Parses (within items pre post) rej (main pre.length) s c v ⟨c.input, c.offset + (ns.flatMap encode).length⟩ 0 ∧ Counts v ns :=
  ⟨_, (main_reads pre post rej s c _ _ 0).2 ⟨_, rest, h, ⟨ns, h0, h9, rfl, rfl⟩, rfl, rfl⟩, made_counts ns⟩

/-- When decoding succeeds, the bytes that were taken are such numbers, and the value has them. -/
theorem C62_peano_sound [DecidableEq Next] (o : BuildOpts) (cfuel : Nat) (prog : List Decoder)
    (hp : compileProgram (within items pre post) o cfuel (main pre.length) = .ok prog) (fuel : Nat) (c : ReadCtxt) (w : Parsed)
    (h : Decoder.run (env o prog) fuel c = .ok w) :
    ∃ (ns : List Nat) (rest : List UInt8), ns ≠ [] ∧ (∀ n ∈ ns, n ≤ 9) ∧ c.input.drop c.offset = ns.flatMap encode ++ rest ∧
      Counts w.value.1 ns ∧ w.value.2 = ⟨c.input, c.offset + (ns.flatMap encode).length⟩ ∧ w.errs = [] := by
  obtain ⟨M, hM⟩ := C11_sound_partial _ o cfuel _ prog hp fuel c w h
  obtain ⟨ns, rest, h0, h1, h2, h3, h4, h5⟩ := C62_peano_derives pre post _ _ _ _ _ _ hM
  exact ⟨ns, rest, h0, h1, h2, h3, h4, List.length_eq_zero_iff.1 h5⟩

end

/-- `SSSZ` stands for the number 3, but the decoder that is compiled for the format refuses it: it only ever reads none or nine
`S`. -/
theorem C62_peano_refuted : ∃ (_ : DecidableEq Next) (prog : List Decoder),
    compileProgram ⟨items 0⟩ ⟨fun _ l => l, 20⟩ 20 (main 0) = .ok prog ∧
    (∃ v, Parses ⟨items 0⟩ (fun _ _ _ => False) (main 0) .empty ⟨encode 3, 0⟩ v ⟨encode 3, 4⟩ 0) ∧
    ∃ e, Decoder.run (env ⟨fun _ l => l, 20⟩ prog) 20 ⟨encode 3, 0⟩ = .err e := by
  refine ⟨fun _ _ => Classical.propDecidable _, _, rfl, ?_, _, rfl⟩
  obtain ⟨v, h, _⟩ := C62_peano_derived [] [] (fun _ _ _ => False) .empty ⟨encode 3, 0⟩ [3] [] (by decide) (by decide) rfl
  exact ⟨v, h⟩

set_option maxHeartbeats 2000000 in
/-- what is read: the number 9 -/
example : ∃ (_ : DecidableEq Next) (prog : List Decoder) (w : Parsed),
    compileProgram ⟨items 0⟩ ⟨fun _ l => l, 20⟩ 20 (main 0) = .ok prog ∧
    Decoder.run (env ⟨fun _ l => l, 20⟩ prog) 20 ⟨[9].flatMap encode, 0⟩ = .ok w :=
  ⟨fun _ _ => Classical.propDecidable _, _, _, rfl, rfl⟩

end Peano

/-! ## A place in the input -/

namespace Waldo

/-- Input that names a place before the end of its header, here the place 0, is not refused: decoding panics. -/
theorem C62_waldo_refuted : ∃ (_ : DecidableEq Next) (prog : List Decoder),
    compileProgram ⟨items⟩ ⟨fun _ l => l, 20⟩ 20 (main 0) = .ok prog ∧
    Decoder.run (env ⟨fun _ l => l, 20⟩ prog) 20 ⟨[0, 0, 0, 0, 0, 0, 0, 0, 0, 119, 97, 108, 100, 111], 0⟩ = .panic :=
  ⟨fun _ _ => Classical.propDecidable _, _, rfl, rfl⟩

end Waldo
end Formats
end Doodle
