import Verif.Lemmas.GzipMember

/-! # C76: the fields of gzip members are there if their flags are set, in the order of the layout

The format is the one that `main` of `doodle-formats/src/format/gzip.rs` adds to a module, with any item for the compressed data.
The layout is specified in `Verif.Spec.GzipMember`. -/

namespace Doodle
namespace GzipMember

open Grammar Compiler Helper Formats Sound

section
variable (flags : Format) (hf : GzipHeader.fileFlags = .ok flags) (deflate : Nat) (pre post : List Item)

/-- the module in which `gzip::main` has found the items `pre`, with the items `post` added after it -/
abbrev into : Module := within (items flags deflate) pre post

/-- what the format for the data derives from the bits of the input -/
abbrev dataAt (rej : Format → Scope Format → ReadCtxt → Prop) : ReadCtxt → Value → ReadCtxt → Nat → Prop :=
  At (into flags deflate pre post) rej (.bits (.itemVar deflate [] []))

include hf

/-- Whatever else the module contains and whatever the item for the data is: the format describes the files that consist of one
member at least, one after the other.  Each has a header, the fields that its flags announce and no others, its data, and a
trailer; the value shows all of them. -/
theorem C76_derives (rej : Format → Scope Format → ReadCtxt → Prop) (s : Scope Format) (c c' : ReadCtxt) (v : Value) (k : Nat) :
    Parses (into flags deflate pre post) rej (main pre.length) s c v c' k ↔
      ∃ vs, vs ≠ [] ∧ v = .seq (.strict vs) ∧ Members (dataAt flags deflate pre post rej) c vs c' k := by
  cases GzipHeader.fileFlags_eq.symm.trans hf
  have hm := fun {s c vs c' k} => members_iff (rej := rej) (deflate := deflate) (s := s) (c := c) (vs := vs) (c' := c') (k := k)
    (item_at (items GzipHeader.flagsFormat deflate) pre post (i := 0) rfl) (item_at (items GzipHeader.flagsFormat deflate) pre post (i := 1) rfl)
    (item_at (items GzipHeader.flagsFormat deflate) pre post (i := 2) rfl) (item_at (items GzipHeader.flagsFormat deflate) pre post (i := 3) rfl)
    (item_at (items GzipHeader.flagsFormat deflate) pre post (i := 4) rfl) (item_at (items GzipHeader.flagsFormat deflate) pre post (i := 5) rfl)
    (item_at (items GzipHeader.flagsFormat deflate) pre post (i := 6) rfl) (item_at (items GzipHeader.flagsFormat deflate) pre post (i := 7) rfl)
  have h8 := item_at (items GzipHeader.flagsFormat deflate) pre post (i := 8) rfl
  constructor
  · intro h
    cases h with
    | itemVar a1 a2 a3 a4 =>
      cases h8.symm.trans a1
      cases a4 with
      | repeat1 a4 hne => exact ⟨_, hne, rfl, hm.1 a4⟩
  · rintro ⟨vs, hne, rfl, h⟩
    exact .itemVar h8 .nil .nil (.repeat1 (hm.2 h) hne)

/-- However the decoder is compiled: when decoding succeeds, the bytes that were taken are members, one at least, the value shows
them, and as many errors were logged as deviations were tolerated in the data. -/
theorem C76_sound_partial [DecidableEq Next] (o : BuildOpts) (cfuel : Nat) (prog : List Decoder)
    (hp : compileProgram (into flags deflate pre post) o cfuel (main pre.length) = .ok prog) (fuel : Nat) (c : ReadCtxt) (w : Parsed)
    (h : Decoder.run (env o prog) fuel c = .ok w) :
    ∃ M vs, vs ≠ [] ∧ w.value.1 = .seq (.strict vs) ∧
      Members (dataAt flags deflate pre post (FailsAt (into flags deflate pre post) o M (env o prog))) c vs w.value.2 w.errs.length := by
  obtain ⟨M, hM⟩ := C11_sound_partial _ o cfuel _ prog hp fuel c w h
  exact ⟨M, (C76_derives flags hf deflate pre post _ _ _ _ _ _).1 hM⟩

end

/-- the module that contains nothing but gzip, where the data is a byte of bits -/
def alone : Module := ⟨⟨[], [], .tuple (List.replicate 8 (.byte .full))⟩ :: items GzipHeader.flagsFormat 0 1⟩

/-- where decoding ends, and how many members there are -/
def counts [DecidableEq Next] (o : BuildOpts) (u : List UInt8) : Option (Nat × Nat) :=
  match compileProgram alone o 40 (main 1) with
  | .ok prog =>
    match Decoder.run (env o prog) 80 ⟨u, 0⟩ with
    | .ok w => match w.value.1 with
      | .seq (.strict vs) => some (w.value.2.offset, vs.length)
      | _ => none
    | _ => none
  | _ => none

/-- a member with a name and a checksum -/
def one : List UInt8 := [0x1F, 0x8B, 8, 10, 0, 0, 0, 0, 0, 3, 97, 98, 0, 1, 2, 77, 1, 2, 3, 4, 1, 0, 0, 0]

/-- a member without optional fields -/
def two : List UInt8 := [0x1F, 0x8B, 8, 0, 0, 0, 0, 0, 0, 3, 77, 1, 2, 3, 4, 1, 0, 0, 0]

example : @counts Riff.compare ⟨fun _ l => l, 20⟩ (one ++ two) = some (43, 2) := by decide +kernel

/-- a flag that is set, and a field that is missing -/
example : @counts Riff.compare ⟨fun _ l => l, 20⟩ (two.set 3 16) = none := by decide +kernel

end GzipMember
end Doodle
