import Verif.Lemmas.GzipHeader
import Verif.Props.Riff

/-! # C74: the headers and trailers of gzip members are decoded by their layout

The formats are the ones that `main` of `doodle-formats/src/format/gzip.rs` calls for the header and for the footer.  The layout
is specified in `Verif.Spec.GzipHeader`. -/

namespace Doodle
namespace GzipHeader

open Grammar Compiler Helper Formats

section
variable (flags : Format) (hf : fileFlags = .ok flags) (pre post : List Item)

/-- the module in which `gzip::main` has found the items `pre`, with the items `post` after `gzip.footer` -/
abbrev into : Module := within (items flags) pre post

include hf

theorem item_flags : (into flags pre post).items[pre.length]? = some ⟨[], [], flagsFormat⟩ := by
  cases fileFlags_eq.symm.trans hf
  exact item_at (items flagsFormat) pre post (i := 0) rfl

omit hf in
theorem item_header : (into flags pre post).items[pre.length + 1]? = some ⟨[], [], header pre.length⟩ :=
  item_at (items flags) pre post (i := 1) rfl

omit hf in
theorem item_footer : (into flags pre post).items[pre.length + 2]? = some ⟨[], [], footer⟩ :=
  item_at (items flags) pre post (i := 2) rfl

/-- Whatever else the module contains, and however the decoder is compiled: when a header is decoded, the bytes that were taken
are the ten bytes of a header, the value shows all its fields and its five flags as the bits of their byte, and nothing was
logged. -/
theorem C74_header_sound_partial [DecidableEq Next] (o : BuildOpts) (cfuel : Nat) (prog : List Decoder)
    (hp : compileProgram (into flags pre post) o cfuel (callHeader pre.length) = .ok prog) (fuel : Nat) (c : ReadCtxt) (w : Parsed)
    (h : Decoder.run (env o prog) fuel c = .ok w) :
    ∃ (x : Header) (rest : List UInt8), x.Valid ∧ c.input.drop c.offset = x.encode ++ rest ∧ w.value.1 = x.value ∧
      w.value.2 = ⟨c.input, c.offset + 10⟩ ∧ w.errs = [] := by
  obtain ⟨M, hM⟩ := C11_sound_partial _ o cfuel _ prog hp fuel c w h
  obtain ⟨u, rest, h1, ⟨x, h2, rfl, h3⟩, h4, h5⟩ := (reads_item (item_header flags pre post) (reads_header (item_flags flags hf pre post)) ..).1 hM
  refine ⟨x, rest, h2, h1, h3, ?_, List.length_eq_zero_iff.1 h5⟩
  have hl : x.encode.length = 10 := by
    have h2 : x.time.length = 4 := h2
    simp [Header.encode, h2]
  rw [h4, hl]

/-- Every header is decoded, wherever it stands and whatever comes after it.  With `C74_header_sound_partial`: the inputs that are
decoded are exactly those that begin with a header. -/
theorem C74_header_complete [DecidableEq Next] (o : BuildOpts) (cfuel : Nat) (prog : List Decoder)
    (hp : compileProgram (into flags pre post) o cfuel (callHeader pre.length) = .ok prog) (c : ReadCtxt) (x : Header) (rest : List UInt8)
    (hx : x.Valid) (h : c.input.drop c.offset = x.encode ++ rest) :
    ∃ N w, w.value = (x.value, ⟨c.input, c.offset + 10⟩) ∧ w.errs = [] ∧ ∀ n, N ≤ n → Decoder.run (env o prog) n c = .ok w := by
  obtain ⟨M, ⟨d, hd, hc⟩, hM⟩ := compileProgram_spec _ o cfuel _ prog hp
  have hl : x.encode.length = 10 := by
    have h2 : x.time.length = 4 := hx
    simp [Header.encode, h2]
  obtain ⟨N, w, h1, h2, h3⟩ := Tiff.plain_item (env := env o prog) hM (item_header flags pre post)
    (plain_header (env := env o prog) (item_flags flags hf pre post) hM) _ _ .empty .empty c x.value _ 0
    ((reads_item (item_header flags pre post) (reads_header (item_flags flags hf pre post)) ..).2 ⟨_, rest, h, ⟨x, hx, rfl, rfl⟩, rfl, rfl⟩) hc .empty
  rw [hl] at h2
  exact ⟨N, w, h2, List.length_eq_zero_iff.1 h3, fun n hn =>
    Outcome.bind_eq_ok.2 ⟨d, Outcome.ofPanicky_eq_ok.2 (Compiler.unwrap_eq_ok.2 hd), h1 n hn⟩⟩

/-- Decoding a header does not panic, on any input. -/
theorem C74_header_safe [DecidableEq Next] (o : BuildOpts) (ho : o.ord.Valid) (cfuel : Nat) (prog : List Decoder)
    (hp : compileProgram (into flags pre post) o cfuel (callHeader pre.length) = .ok prog) (fuel : Nat) (c : ReadCtxt) :
    Decoder.run (env o prog) fuel c ≠ .panic :=
  C55_no_panic_partial _ o ho cfuel _ prog hp c (total_item (item_header flags pre post) (total_header (item_flags flags hf pre post)) _ _ _) fuel

omit hf

/-- When a trailer is decoded, the bytes that were taken are its eight bytes, and the value shows both numbers. -/
theorem C74_footer_sound [DecidableEq Next] (o : BuildOpts) (cfuel : Nat) (prog : List Decoder)
    (hp : compileProgram (into flags pre post) o cfuel (callFooter pre.length) = .ok prog) (fuel : Nat) (c : ReadCtxt) (w : Parsed)
    (h : Decoder.run (env o prog) fuel c = .ok w) :
    ∃ (x : Footer) (rest : List UInt8), x.Valid ∧ c.input.drop c.offset = x.encode ++ rest ∧ w.value.1 = x.value ∧
      w.value.2 = ⟨c.input, c.offset + 8⟩ ∧ w.errs = [] := by
  obtain ⟨M, hM⟩ := C11_sound_partial _ o cfuel _ prog hp fuel c w h
  obtain ⟨u, rest, h1, ⟨x, h2, rfl, h3⟩, h4, h5⟩ := (reads_item (item_footer flags pre post) reads_footer ..).1 hM
  refine ⟨x, rest, h2, h1, h3, ?_, List.length_eq_zero_iff.1 h5⟩
  rw [h4, Footer.encode, List.length_append, h2.1, h2.2]

/-- Every eight bytes are decoded as a trailer, wherever they stand and whatever comes after them. -/
theorem C74_footer_complete [DecidableEq Next] (o : BuildOpts) (cfuel : Nat) (prog : List Decoder)
    (hp : compileProgram (into flags pre post) o cfuel (callFooter pre.length) = .ok prog) (c : ReadCtxt) (x : Footer) (rest : List UInt8)
    (hx : x.Valid) (h : c.input.drop c.offset = x.encode ++ rest) :
    ∃ N w, w.value = (x.value, ⟨c.input, c.offset + 8⟩) ∧ w.errs = [] ∧ ∀ n, N ≤ n → Decoder.run (env o prog) n c = .ok w := by
  obtain ⟨M, ⟨d, hd, hc⟩, hM⟩ := compileProgram_spec _ o cfuel _ prog hp
  obtain ⟨N, w, h1, h2, h3⟩ := Tiff.plain_item (env := env o prog) hM (item_footer flags pre post)
    plain_footer _ _ .empty .empty c x.value _ 0
    ((reads_item (item_footer flags pre post) reads_footer ..).2 ⟨_, rest, h, ⟨x, hx, rfl, rfl⟩, rfl, rfl⟩) hc .empty
  rw [Footer.encode, List.length_append, hx.1, hx.2] at h2
  exact ⟨N, w, h2, List.length_eq_zero_iff.1 h3, fun n hn =>
    Outcome.bind_eq_ok.2 ⟨d, Outcome.ofPanicky_eq_ok.2 (Compiler.unwrap_eq_ok.2 hd), h1 n hn⟩⟩

/-- Decoding a trailer does not panic, on any input. -/
theorem C74_footer_safe [DecidableEq Next] (o : BuildOpts) (ho : o.ord.Valid) (cfuel : Nat) (prog : List Decoder)
    (hp : compileProgram (into flags pre post) o cfuel (callFooter pre.length) = .ok prog) (fuel : Nat) (c : ReadCtxt) :
    Decoder.run (env o prog) fuel c ≠ .panic :=
  C55_no_panic_partial _ o ho cfuel _ prog hp c (total_item (item_footer flags pre post) total_footer _ _ _) fuel

end

/-- Bytes are those of one header at most. -/
theorem C74_unique (x x' : Header) (p p' : List UInt8) (hx : x.Valid) (hx' : x'.Valid) (he : x.encode ++ p = x'.encode ++ p') :
    x = x' ∧ p = p' := by
  obtain ⟨a, b, t, d, e⟩ := x
  obtain ⟨a', b', t', d', e'⟩ := x'
  simp only [Header.Valid] at hx hx'
  simp only [Header.encode, List.cons_append, List.append_assoc, List.cons.injEq, true_and] at he
  obtain ⟨rfl, rfl, he⟩ := he
  obtain ⟨rfl, he1⟩ := List.append_inj he (hx.trans hx'.symm)
  simp only [List.cons_append, List.cons.injEq, List.nil_append] at he1
  obtain ⟨rfl, rfl, rfl⟩ := he1
  exact ⟨rfl, rfl⟩

/-- The items are made without a panic. -/
theorem C74_made : ∃ flags, fileFlags = .ok flags := ⟨_, fileFlags_eq⟩

/-- The reserved bits of the flags, which the format says are to be checked, are not: however the decoder is compiled, and
wherever the format is used, a header is decoded in which all of them are set, and nothing is logged.  By `C74_header_complete`
this holds of all such headers. -/
theorem C74_reserved_refuted : ∃ x : Header, x.Valid ∧ ¬ x.Compliant ∧ ∀ (flags : Format) (_ : fileFlags = .ok flags) (pre post : List Item)
    [DecidableEq Next] (o : BuildOpts) (cfuel : Nat) (prog : List Decoder),
    compileProgram (into flags pre post) o cfuel (callHeader pre.length) = .ok prog →
    ∃ N w, w.value = (x.value, ⟨x.encode, 10⟩) ∧ w.errs = [] ∧ ∀ n, N ≤ n → Decoder.run (env o prog) n ⟨x.encode, 0⟩ = .ok w := by
  refine ⟨⟨8, 0xE8, [0, 0, 0, 0], 0, 3⟩, rfl, by unfold Header.Compliant; decide, fun flags hf pre post _ o cfuel prog hp => ?_⟩
  exact C74_header_complete flags hf pre post o cfuel prog hp ⟨_, 0⟩ _ [] rfl (List.append_nil _).symm

/-- the header of a file with a name -/
def sample : Header := ⟨8, 8, [1, 0, 0, 0], 2, 3⟩

example : sample.Valid ∧ sample.Compliant ∧ sample.encode = [0x1F, 0x8B, 8, 8, 1, 0, 0, 0, 2, 3] := ⟨rfl, by unfold Header.Compliant; decide, rfl⟩

/-- the module that contains nothing but these formats -/
def alone : Module := ⟨items flagsFormat 0⟩

/-- whether the bytes are decoded to their end -/
def takesAll [DecidableEq Next] (o : BuildOpts) (f : Format) (u : List UInt8) : Bool :=
  match compileProgram alone o 20 f with
  | .ok prog =>
    match Decoder.run (env o prog) 60 ⟨u, 0⟩ with
    | .ok w => decide (w.value.2.offset = u.length)
    | _ => false
  | _ => false

/-- it is decoded -/
example : @takesAll Riff.compare ⟨fun _ l => l, 20⟩ (callHeader 0) sample.encode = true := by
  decide +kernel

/-- other magic bytes are not -/
example : @takesAll Riff.compare ⟨fun _ l => l, 20⟩ (callHeader 0) [0x1F, 0x8C, 8, 8, 1, 0, 0, 0, 2, 3] = false := by
  decide +kernel

/-- a trailer is decoded -/
example : @takesAll Riff.compare ⟨fun _ l => l, 20⟩ (callFooter 0) [1, 2, 3, 4, 5, 0, 0, 0] = true := by
  decide +kernel

end GzipHeader
end Doodle
