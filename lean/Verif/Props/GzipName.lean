import Verif.Model.GzipName
import Verif.Lemmas.GzipHeader
import Verif.Props.Predictive
import Verif.Props.Riff

/-! # C75: strings that end with a zero byte, as the names and comments of gzip members, are decoded up to it

The formats are `asciiz_string` of `src/helper.rs` and those that `main` of `doodle-formats/src/format/gzip.rs` calls for the
name, the comment and the checksum of a header. -/

namespace Doodle
namespace GzipName

open Grammar Compiler Helper Predictive

/-- what the value of a string shows: its bytes, without the zero byte -/
def text (u : List UInt8) : Value := .seq (.strict (u.map Value.u8))

section
variable {m : Module}

theorem not_zero {b : UInt8} : (ByteSet.fromIter [0]).complement.contains b = true ↔ b ≠ 0 := by
  rw [ByteSet.C01_contains_complement, Tiff.contains_one]

theorem pieces_text {u : List UInt8} {vs : List Value} :
    Pieces (fun u v => ∃ b, u = [b] ∧ (ByteSet.fromIter [0]).complement.contains b = true ∧ v = .u8 b) u vs ↔ (0 : UInt8) ∉ u ∧ vs = u.map Value.u8 := by
  constructor
  · intro h
    induction h with
    | nil => exact ⟨List.not_mem_nil, rfl⟩
    | cons h _ ih =>
      obtain ⟨b, rfl, hb, rfl⟩ := h
      obtain ⟨h1, rfl⟩ := ih
      refine ⟨fun h => ?_, rfl⟩
      rcases List.mem_cons.1 h with h | h
      · exact not_zero.1 hb h.symm
      · exact h1 h
  · rintro ⟨h, rfl⟩
    induction u with
    | nil => exact .nil
    | cons b u ih =>
      exact .cons (u := [b]) ⟨b, rfl, not_zero.2 fun hb => h (hb ▸ .head _), rfl⟩ (ih fun h' => h (.tail _ h'))

theorem reads_asciiz : Grammar.Reads m asciizString fun _ w v => ∃ u, (0 : UInt8) ∉ u ∧ w = u ++ [0] ∧ v = text u := by
  refine (reads_hint (reads_letFormat (reads_repeat (reads_byte _)) (reads_monadSeq (reads_byte _) reads_compute))).congr fun s w v => ?_
  constructor
  · rintro ⟨u, _, _, rfl, ⟨vs, hp, rfl⟩, _, _, _, rfl, ⟨b, rfl, hb, rfl⟩, rfl, hv⟩
    obtain ⟨h1, rfl⟩ := pieces_text.1 hp
    rw [Tiff.contains_one] at hb
    subst hb
    have hv' : Denotes (.var "chars") (.single "chars" (text u) s) (text u) := rfl
    cases hv'.symm.trans hv
    exact ⟨u, h1, rfl, rfl⟩
  · rintro ⟨u, h1, rfl, rfl⟩
    exact ⟨u, [0], text u, rfl, ⟨_, pieces_text.2 ⟨h1, rfl⟩, rfl⟩, [0], [], _, rfl, ⟨0, rfl, Tiff.contains_one.2 rfl, rfl⟩, rfl, rfl⟩

theorem fcomment_eq : fcomment = .hint (.letFormat asciizString "comment" (.compute (.record [("comment", .var "comment")]))) := rfl

theorem fhcrc_eq : fhcrc = .hint (.letFormat (word .b16 false) "crc" (.compute (.record [("crc", .var "crc")]))) := rfl

theorem reads_fcomment : Grammar.Reads m fcomment fun _ w v => ∃ u, (0 : UInt8) ∉ u ∧ w = u ++ [0] ∧ v = .record [("comment", text u)] := by
  rw [fcomment_eq]
  refine (reads_hint (reads_letFormat reads_asciiz reads_compute)).congr fun s w v => ?_
  have hv' : ∀ x, Denotes (.record [("comment", .var "comment")]) (.single "comment" x s) (.record [("comment", x)]) := fun _ => rfl
  constructor
  · rintro ⟨_, _, _, rfl, ⟨u, h1, rfl, rfl⟩, rfl, hv⟩
    cases (hv' _).symm.trans hv
    exact ⟨u, h1, List.append_nil _, rfl⟩
  · rintro ⟨u, h1, rfl, rfl⟩
    exact ⟨u ++ [0], [], _, (List.append_nil _).symm, ⟨u, h1, rfl, rfl⟩, rfl, hv' _⟩

theorem reads_fhcrc : Grammar.Reads m fhcrc fun _ u v => u.length = 2 ∧
    v = .record [("crc", .mapped (.tuple (u.map Value.u8)) (num .b16 (littleEnd u)))] := by
  rw [fhcrc_eq]
  refine (reads_hint (reads_letFormat (fixed_word .b16 false).reads reads_compute)).congr fun s w v => ?_
  have hv' : ∀ x, Denotes (.record [("crc", .var "crc")]) (.single "crc" x s) (.record [("crc", x)]) := fun _ => rfl
  constructor
  · rintro ⟨u, _, _, rfl, ⟨h1, rfl⟩, rfl, hv⟩
    cases (hv' _).symm.trans hv
    exact ⟨by rw [List.append_nil]; exact h1, by rw [List.append_nil]; rfl⟩
  · rintro ⟨h1, rfl⟩
    exact ⟨w, [], _, (List.append_nil _).symm, ⟨h1, rfl⟩, rfl, hv' _⟩

end

section
variable [DecidableEq Next] (m : Module) (o : BuildOpts) (cfuel : Nat) (prog : List Decoder)

/-- In any module, and however the decoder is compiled: when a string is decoded, the bytes that were taken are those up to
the first zero byte, with that byte, and the value shows them without it. -/
theorem C75_string_sound (hp : compileProgram m o cfuel asciizString = .ok prog) (fuel : Nat) (c : ReadCtxt) (w : Parsed)
    (h : Decoder.run (env o prog) fuel c = .ok w) :
    ∃ u rest, (0 : UInt8) ∉ u ∧ c.input.drop c.offset = u ++ 0 :: rest ∧ w.value.1 = text u ∧
      w.value.2 = ⟨c.input, c.offset + u.length + 1⟩ ∧ w.errs = [] := by
  obtain ⟨M, hM⟩ := C11_sound_partial _ o cfuel _ prog hp fuel c w h
  obtain ⟨_, rest, h1, ⟨u, h2, rfl, h3⟩, h4, h5⟩ := (reads_asciiz ..).1 hM
  refine ⟨u, rest, h2, by rw [h1]; simp, h3, ?_, List.length_eq_zero_iff.1 h5⟩
  rw [h4, List.length_append]; rfl

/-- The same for the comment of a gzip member, where the value is a record. -/
theorem C75_comment_sound (l : Nat) (hi : m.items[l]? = some ⟨[], [], fcomment⟩)
    (hp : compileProgram m o cfuel (.itemVar l [] []) = .ok prog) (fuel : Nat) (c : ReadCtxt) (w : Parsed)
    (h : Decoder.run (env o prog) fuel c = .ok w) :
    ∃ u rest, (0 : UInt8) ∉ u ∧ c.input.drop c.offset = u ++ 0 :: rest ∧ w.value.1 = .record [("comment", text u)] ∧
      w.value.2 = ⟨c.input, c.offset + u.length + 1⟩ ∧ w.errs = [] := by
  obtain ⟨M, hM⟩ := C11_sound_partial _ o cfuel _ prog hp fuel c w h
  obtain ⟨_, rest, h1, ⟨u, h2, rfl, h3⟩, h4, h5⟩ := (reads_item hi reads_fcomment ..).1 hM
  refine ⟨u, rest, h2, by rw [h1]; simp, h3, ?_, List.length_eq_zero_iff.1 h5⟩
  rw [h4, List.length_append]; rfl

/-- The same for the name of a gzip member. -/
theorem C75_name_sound (l : Nat) (hi : m.items[l]? = some ⟨[], [], fname⟩)
    (hp : compileProgram m o cfuel (.itemVar l [] []) = .ok prog) (fuel : Nat) (c : ReadCtxt) (w : Parsed)
    (h : Decoder.run (env o prog) fuel c = .ok w) :
    ∃ u rest, (0 : UInt8) ∉ u ∧ c.input.drop c.offset = u ++ 0 :: rest ∧ w.value.1 = text u ∧
      w.value.2 = ⟨c.input, c.offset + u.length + 1⟩ ∧ w.errs = [] := by
  obtain ⟨M, hM⟩ := C11_sound_partial _ o cfuel _ prog hp fuel c w h
  obtain ⟨_, rest, h1, ⟨u, h2, rfl, h3⟩, h4, h5⟩ := (reads_item hi reads_asciiz ..).1 hM
  refine ⟨u, rest, h2, by rw [h1]; simp, h3, ?_, List.length_eq_zero_iff.1 h5⟩
  rw [h4, List.length_append]; rfl

/-- When the checksum of a header is decoded, the value shows its two bytes, and the number with the less significant one
first. -/
theorem C75_checksum_sound (l : Nat) (hi : m.items[l]? = some ⟨[], [], fhcrc⟩)
    (hp : compileProgram m o cfuel (.itemVar l [] []) = .ok prog) (fuel : Nat) (c : ReadCtxt) (w : Parsed)
    (h : Decoder.run (env o prog) fuel c = .ok w) :
    ∃ u rest, u.length = 2 ∧ c.input.drop c.offset = u ++ rest ∧
      w.value.1 = .record [("crc", .mapped (.tuple (u.map Value.u8)) (num .b16 (littleEnd u)))] ∧
      w.value.2 = ⟨c.input, c.offset + 2⟩ ∧ w.errs = [] := by
  obtain ⟨M, hM⟩ := C11_sound_partial _ o cfuel _ prog hp fuel c w h
  obtain ⟨u, rest, h1, ⟨h2, h3⟩, h4, h5⟩ := (reads_item hi reads_fhcrc ..).1 hM
  exact ⟨u, rest, h2, h1, h3, by rw [h4, h2], List.length_eq_zero_iff.1 h5⟩

/-- Decoding any of them does not panic, on any input. -/
theorem C75_safe (ho : o.ord.Valid) (f : Format) (hf : f = fname ∨ f = fcomment ∨ f = fhcrc) (l : Nat) (hi : m.items[l]? = some ⟨[], [], f⟩)
    (hp : compileProgram m o cfuel (.itemVar l [] []) = .ok prog) (fuel : Nat) (c : ReadCtxt) :
    Decoder.run (env o prog) fuel c ≠ .panic := by
  refine C55_no_panic_partial _ o ho cfuel _ prog hp c (total_item hi ?_ _ _ _) fuel
  have hz : Total m asciizString := total_hint fun codes s c => .letFormat (total_repeat (total_byte _) _ _ _) fun v c1 k1 hp1 => by
    obtain ⟨u, _, _, ⟨vs, _, rfl⟩, _⟩ := (reads_repeat (reads_byte _) ..).1 hp1
    exact .monadSeq .byte fun _ _ _ _ => .compute (v := .seq (.strict vs)) rfl
  rcases hf with rfl | rfl | rfl
  · exact hz
  · rw [fcomment_eq]
    exact total_hint fun codes s c => .letFormat (hz _ _ _) fun v _ _ _ => .compute (v := .record [("comment", v)]) rfl
  · rw [fhcrc_eq]
    exact total_hint fun codes s c => .letFormat ((fixed_word .b16 false).total _ _ _) fun v _ _ _ => .compute (v := .record [("crc", v)]) rfl

end

/-- the module that contains nothing but these formats -/
def alone : Module := ⟨[⟨[], [], fname⟩, ⟨[], [], fcomment⟩, ⟨[], [], fhcrc⟩]⟩

private def T : Tables := ⟨[.full, .full, .full], [false, false, false], [.full, .full, .full]⟩

private theorem tables : checkTables alone T = true := by decide +kernel

section
variable [DecidableEq Next] (o : BuildOpts) (ho : o.ord.Valid) (cfuel : Nat) (prog : List Decoder)
include ho

/-- what the three formats derive at the place is found by their decoders, whatever comes after it -/
theorem finds_all {l : Nat} (hl : l < 3) (hp : compileProgram alone o cfuel (.itemVar l [] []) = .ok prog) {c c' : ReadCtxt} {v : Value}
    (h : Parses alone (fun _ _ _ => False) (.itemVar l [] []) .empty c v c' 0) :
    ∃ N w, w.value = (v, c') ∧ w.errs = [] ∧ ∀ n, N ≤ n → Decoder.run (env o prog) n c = .ok w := by
  obtain ⟨N, w, e1, e2, e3⟩ := C12_predictive_partial alone (Φ T) o true false (checkItems_sound tables (by decide +kernel)) ho cfuel
    (.itemVar l [] []) (fun _ => True) (check_sound (F' := .full) tables _ (fun b _ => full_contains b) (by
      match l, hl with
      | 0, _ | 1, _ | 2, _ => decide +kernel)) prog hp _ _ v 0 h (.inl rfl) (fun h => nomatch h) (fun _ _ => trivial)
  exact ⟨N, w, e1, List.length_eq_zero_iff.1 e2, e3⟩

/-- Every name that ends with a zero byte is decoded, however long it is and whatever comes after it. -/
theorem C75_name_complete (hp : compileProgram alone o cfuel (.itemVar 0 [] []) = .ok prog) (c : ReadCtxt) (u rest : List UInt8)
    (hu : (0 : UInt8) ∉ u) (h : c.input.drop c.offset = u ++ 0 :: rest) :
    ∃ N w, w.value = (text u, ⟨c.input, c.offset + u.length + 1⟩) ∧ w.errs = [] ∧ ∀ n, N ≤ n → Decoder.run (env o prog) n c = .ok w :=
  finds_all o ho cfuel prog (by decide) hp ((reads_item (l := 0) rfl reads_asciiz ..).2
    ⟨u ++ [0], rest, by rw [h]; simp, ⟨u, hu, rfl, rfl⟩, by rw [List.length_append]; rfl, rfl⟩)

/-- Every comment that ends with a zero byte is decoded. -/
theorem C75_comment_complete (hp : compileProgram alone o cfuel (.itemVar 1 [] []) = .ok prog) (c : ReadCtxt) (u rest : List UInt8)
    (hu : (0 : UInt8) ∉ u) (h : c.input.drop c.offset = u ++ 0 :: rest) :
    ∃ N w, w.value = (.record [("comment", text u)], ⟨c.input, c.offset + u.length + 1⟩) ∧ w.errs = [] ∧
      ∀ n, N ≤ n → Decoder.run (env o prog) n c = .ok w :=
  finds_all o ho cfuel prog (by decide) hp ((reads_item (l := 1) rfl reads_fcomment ..).2
    ⟨u ++ [0], rest, by rw [h]; simp, ⟨u, hu, rfl, rfl⟩, by rw [List.length_append]; rfl, rfl⟩)

/-- Every two bytes are decoded as a checksum. -/
theorem C75_checksum_complete (hp : compileProgram alone o cfuel (.itemVar 2 [] []) = .ok prog) (c : ReadCtxt) (u rest : List UInt8)
    (hu : u.length = 2) (h : c.input.drop c.offset = u ++ rest) :
    ∃ N w, w.value = (.record [("crc", .mapped (.tuple (u.map Value.u8)) (num .b16 (littleEnd u)))], ⟨c.input, c.offset + 2⟩) ∧
      w.errs = [] ∧ ∀ n, N ≤ n → Decoder.run (env o prog) n c = .ok w :=
  finds_all o ho cfuel prog (by decide) hp ((reads_item (l := 2) rfl reads_fhcrc ..).2
    ⟨u, rest, h, ⟨hu, rfl⟩, by rw [hu], rfl⟩)

end

theorem alone_moves : alone.LoopsMove := by
  intro i it h
  match i with
  | 0 =>
    cases h
    simp [fname, asciizString, notByte, isByte, Format.LoopsMove, Format.BoundsSafe, Format.BoundsSafeWith]
  | 1 =>
    cases h
    rw [show (⟨[], [], fcomment⟩ : Item).format = fcomment from rfl, fcomment_eq]
    simp [asciizString, notByte, isByte, Format.LoopsMove, Format.BoundsSafe, Format.BoundsSafeWith]
  | 2 =>
    cases h
    rw [show (⟨[], [], fhcrc⟩ : Item).format = fhcrc from rfl, fhcrc_eq]
    simp [word, Format.LoopsMove, Format.AllLoopsMove, List.replicate, Num.BitWidth.bits]
  | i + 3 => simp [alone] at h

/-- Decoding comes to an end on every input, with a zero byte or without. -/
theorem C75_terminates [DecidableEq Next] (o : BuildOpts) (ho : o.ord.Valid) (hfuel : 6 ≤ o.fuel) (cfuel : Nat) (prog : List Decoder)
    (l : Nat) (hl : l < 3) (hp : compileProgram alone o cfuel (.itemVar l [] []) = .ok prog) (c : ReadCtxt) (hi : c.Inside) :
    ∃ N, Decoder.run (env o prog) N c ≠ .fuel ∧ ∀ n, N ≤ n → Decoder.run (env o prog) n c = Decoder.run (env o prog) N c :=
  C14_terminates_partial alone alone_moves o ho hfuel cfuel (.itemVar l [] []) (by
    simp only [Format.LoopsMove]
    exact hl) prog hp c hi

/-- whether the decoder of the item stops after so many bytes -/
def stopsAt [DecidableEq Next] (o : BuildOpts) (l : Nat) (u : List UInt8) (k : Nat) : Bool :=
  match compileProgram alone o 20 (.itemVar l [] []) with
  | .ok prog =>
    match Decoder.run (env o prog) 60 ⟨u, 0⟩ with
    | .ok w => decide (w.value.2.offset = k)
    | _ => false
  | _ => false

/-- a name, with further bytes after it -/
example : @stopsAt Riff.compare ⟨fun _ l => l, 20⟩ 0 [97, 46, 99, 0, 5, 0] 4 = true := by decide +kernel

/-- an empty comment -/
example : @stopsAt Riff.compare ⟨fun _ l => l, 20⟩ 1 [0, 7] 1 = true := by decide +kernel

/-- a name that does not end -/
example : @stopsAt Riff.compare ⟨fun _ l => l, 20⟩ 0 [97, 98] 2 = false := by decide +kernel

/-- a checksum -/
example : @stopsAt Riff.compare ⟨fun _ l => l, 20⟩ 2 [1, 2, 3] 2 = true := by decide +kernel

end GzipName
end Doodle
