import Verif.Model.GzipHeader
import Verif.Spec.GzipHeader
import Verif.Lemmas.TiffFound

/-! The header and the trailer of gzip members: what they read, and what decoders find. -/

namespace Doodle
namespace GzipHeader

open Grammar Compiler Helper Sound Predictive
open Riff (Runs Finds Plain Scopes SafeIn)

variable {m : Module} {o : BuildOpts} {M : List ((Nat × Next) × Nat)} {env : Env}

theorem reads_sequence {fs : List Format} {P : Scope Format → List UInt8 → List Value → Prop} (hs : ReadsAll m fs P) :
    Grammar.Reads m (.sequence fs) fun s u v => ∃ vs, P s u vs ∧ v = .seq (.strict vs) := by
  intro rej s c v c' n
  constructor
  · intro h'
    cases h' with
    | sequence h1 =>
      obtain ⟨u, rest, h3, h4, h5⟩ := (hs ..).1 h1
      exact ⟨u, rest, h3, ⟨_, h4, rfl⟩, h5⟩
  · rintro ⟨u, rest, h3, ⟨vs, h4, rfl⟩, h5⟩
    exact .sequence ((hs ..).2 ⟨u, rest, h3, h4, h5⟩)

theorem plain_sequence {fs : List Format} (h : ∀ f ∈ fs, Plain m o M env f) : Plain m o M env (.sequence fs) := by
  intro next d s s' c v c' k hp hc hs
  cases hp with
  | sequence hp =>
    cases hc with
    | sequence hc =>
      obtain ⟨N, acc, h1, h2, h3⟩ := Riff.plain_fields h hp hc hs (.new ([], _)) rfl
      refine .mk (N := N) (w := acc.map fun r => (.seq (.strict r.1), r.2)) (fun n hn => ?_) (by simp only [WithErr.map, h2]; rfl) h3
      unfold Decoder.parse
      exact Outcome.bind_eq_ok.2 ⟨_, h1 n hn, rfl⟩

theorem reads_magic (a b : UInt8) : Grammar.Reads m (byteSeq [a, b]) fun _ u v => u = [a, b] ∧ v = .seq (.strict [.u8 a, .u8 b]) := by
  refine (reads_sequence (readsAll_cons (reads_byte _) (readsAll_cons (reads_byte _) readsAll_nil))).congr fun s u v => ?_
  constructor
  · rintro ⟨_, ⟨_, _, _, _, rfl, rfl, ⟨x, rfl, hx, rfl⟩, _, _, _, _, rfl, rfl, ⟨y, rfl, hy, rfl⟩, rfl, rfl⟩, rfl⟩
    rw [Tiff.contains_one] at hx hy
    subst hx hy
    exact ⟨rfl, rfl⟩
  · rintro ⟨rfl, rfl⟩
    exact ⟨_, ⟨[a], [b], _, _, rfl, rfl, ⟨a, rfl, Tiff.contains_one.2 rfl, rfl⟩, [b], [], _, _, rfl, rfl,
      ⟨b, rfl, Tiff.contains_one.2 rfl, rfl⟩, rfl, rfl⟩, rfl⟩

/-- the flag that stands `i` bits from the left -/
def flag (i : Nat) : Expr := isNonzero .b8 (.arith .bitAnd (if 7 - i = 0 then .var "_packed_bits" else .arith .shr (.var "_packed_bits") (lit .b8 (7 - i))) (lit .b8 1))

/-- the record of the flags, written out -/
def flagsFormat : Format := .hint (.letFormat (.byte .full) "_packed_bits" (.letFormat (.compute (flag 3)) "fcomment"
  (.letFormat (.compute (flag 4)) "fname" (.letFormat (.compute (flag 5)) "fextra" (.letFormat (.compute (flag 6)) "fhcrc"
    (.letFormat (.compute (flag 7)) "ftext" (.compute (.record [("fcomment", .var "fcomment"), ("fname", .var "fname"),
      ("fextra", .var "fextra"), ("fhcrc", .var "fhcrc"), ("ftext", .var "ftext")]))))))))

theorem fileFlags_eq : fileFlags = .ok flagsFormat := rfl

theorem flag_eval {s : Scope Format} {b : UInt8} {i : Nat} (hi : i < 8) (h : s.getValue "_packed_bits" = some (.u8 b)) :
    Denotes (flag i) s (.bool (b.toNat.testBit (7 - i))) := by
  have hl : (msbFirst b).length = 8 := msbFirst_length b
  have h1 : (sliceExpr .b8 i 1).eval s = .ok (num .b8 (binary (((msbFirst b).drop i).take 1))) :=
    slice_eval h (by
      rw [msbFirst_binary, num_eq (w := .b8) b.toNat_lt]
      rfl) hl (by show i + 1 ≤ 8; omega) (by decide) (by decide)
  have h2 : ((msbFirst b).drop i).take 1 = [b.toNat.testBit (7 - i)] := by
    rw [List.drop_eq_getElem_cons (by omega)]
    simp [msbFirst]
  have h3 : flag i = isNonzero .b8 (sliceExpr .b8 i 1) := by
    simp only [flag, sliceExpr, show (Num.BitWidth.b8).bits = 8 from rfl, show 8 - i - 1 = 7 - i by omega]
  rw [h2] at h1
  show Expr.evalValue _ _ = _
  rw [h3]
  unfold Expr.evalValue isNonzero
  rw [Expr.eval, h1]
  cases b.toNat.testBit (7 - i) <;> rfl

theorem all_flags (s : Scope Format) (p a b c d e : Value) :
    Denotes (.record [("fcomment", .var "fcomment"), ("fname", .var "fname"),
      ("fextra", .var "fextra"), ("fhcrc", .var "fhcrc"), ("ftext", .var "ftext")])
      (.single "ftext" e (.single "fhcrc" d (.single "fextra" c (.single "fname" b (.single "fcomment" a (.single "_packed_bits" p s))))))
      (.record [("fcomment", a), ("fname", b), ("fextra", c), ("fhcrc", d), ("ftext", e)]) := rfl

theorem reads_flags : Grammar.Reads m flagsFormat fun _ u v => ∃ b, u = [b] ∧ v = flagsValue b := by
  refine (reads_hint (reads_letFormat (reads_byte _) (reads_letFormat reads_compute (reads_letFormat reads_compute
    (reads_letFormat reads_compute (reads_letFormat reads_compute (reads_letFormat reads_compute reads_compute))))))).congr fun s u v => ?_
  constructor
  · rintro ⟨_, _, _, rfl, ⟨b, rfl, -, rfl⟩, _, _, x3, rfl, ⟨rfl, h3⟩, _, _, x4, rfl, ⟨rfl, h4⟩, _, _, x5, rfl, ⟨rfl, h5⟩,
      _, _, x6, rfl, ⟨rfl, h6⟩, _, _, x7, rfl, ⟨rfl, h7⟩, rfl, hv⟩
    cases (flag_eval (b := b) (by decide) rfl).symm.trans h3
    cases (flag_eval (b := b) (by decide) rfl).symm.trans h4
    cases (flag_eval (b := b) (by decide) rfl).symm.trans h5
    cases (flag_eval (b := b) (by decide) rfl).symm.trans h6
    cases (flag_eval (b := b) (by decide) rfl).symm.trans h7
    cases (all_flags ..).symm.trans hv
    exact ⟨b, rfl, rfl⟩
  · rintro ⟨b, rfl, rfl⟩
    exact ⟨[b], [], _, rfl, ⟨b, rfl, full_contains b, rfl⟩, [], [], _, rfl, ⟨rfl, flag_eval (b := b) (by decide) rfl⟩,
      [], [], _, rfl, ⟨rfl, flag_eval (b := b) (by decide) rfl⟩, [], [], _, rfl, ⟨rfl, flag_eval (b := b) (by decide) rfl⟩,
      [], [], _, rfl, ⟨rfl, flag_eval (b := b) (by decide) rfl⟩, [], [], _, rfl, ⟨rfl, flag_eval (b := b) (by decide) rfl⟩, rfl, all_flags ..⟩

theorem plain_flags : Plain m o M env flagsFormat :=
  Riff.plain_hint (Gzip.plain_letFormat Riff.plain_byte (Gzip.plain_letFormat Riff.plain_compute (Gzip.plain_letFormat Riff.plain_compute
    (Gzip.plain_letFormat Riff.plain_compute (Gzip.plain_letFormat Riff.plain_compute (Gzip.plain_letFormat Riff.plain_compute Riff.plain_compute))))))

theorem total_flags : Total m flagsFormat := by
  refine total_hint fun codes s c => .letFormat .byte fun v c1 k hp => ?_
  cases hp with
  | @byte _ _ _ b h1 h2 =>
    refine .letFormat (.compute (flag_eval (b := b) (i := 3) (by decide) rfl)) fun v1 c1 _ _ => .letFormat (.compute (flag_eval (b := b) (i := 4) (by decide) rfl)) fun v2 c2 _ _ =>
      .letFormat (.compute (flag_eval (b := b) (i := 5) (by decide) rfl)) fun v3 c3 _ _ => .letFormat (.compute (flag_eval (b := b) (i := 6) (by decide) rfl)) fun v4 c4 _ _ =>
        .letFormat (.compute (flag_eval (b := b) (i := 7) (by decide) rfl)) fun v5 c5 _ _ => .compute (all_flags ..)

/-- the record of a header, written out -/
theorem header_eq (l : Nat) : header l = .hint (.letFormat (byteSeq [0x1F, 0x8B]) "magic" (.letFormat u8 "method"
    (.letFormat (.itemVar l [] []) "file-flags" (.letFormat (word .b32 false) "timestamp" (.letFormat u8 "compression-flags"
      (.letFormat u8 "os-id" (.compute (.record [("magic", .var "magic"), ("method", .var "method"), ("file-flags", .var "file-flags"),
        ("timestamp", .var "timestamp"), ("compression-flags", .var "compression-flags"), ("os-id", .var "os-id")])))))))) := rfl

/-- the record of a trailer, written out -/
theorem footer_eq : footer = .hint (.letFormat (word .b32 false) "crc" (.letFormat (word .b32 false) "length"
    (.compute (.record [("crc", .var "crc"), ("length", .var "length")])))) := rfl

theorem all_header (s : Scope Format) (a b c d e f : Value) :
    Denotes (.record [("magic", .var "magic"), ("method", .var "method"), ("file-flags", .var "file-flags"),
        ("timestamp", .var "timestamp"), ("compression-flags", .var "compression-flags"), ("os-id", .var "os-id")])
      (.single "os-id" f (.single "compression-flags" e (.single "timestamp" d (.single "file-flags" c (.single "method" b (.single "magic" a s))))))
      (.record [("magic", a), ("method", b), ("file-flags", c), ("timestamp", d), ("compression-flags", e), ("os-id", f)]) := rfl

theorem all_footer (s : Scope Format) (a b : Value) :
    Denotes (.record [("crc", .var "crc"), ("length", .var "length")]) (.single "length" b (.single "crc" a s))
      (.record [("crc", a), ("length", b)]) := rfl

theorem reads_footer : Grammar.Reads m footer fun _ u v => ∃ f : Footer, f.Valid ∧ u = f.encode ∧ v = f.value := by
  rw [footer_eq]
  refine (reads_hint (reads_letFormat (fixed_word .b32 false).reads (reads_letFormat (fixed_word .b32 false).reads reads_compute))).congr fun s u v => ?_
  constructor
  · rintro ⟨a, _, _, rfl, ⟨ha, rfl⟩, b, _, _, rfl, ⟨hb, rfl⟩, rfl, hv⟩
    cases (all_footer ..).symm.trans hv
    exact ⟨⟨a, b⟩, ⟨ha, hb⟩, by simp [Footer.encode], rfl⟩
  · rintro ⟨⟨a, b⟩, ⟨ha, hb⟩, rfl, rfl⟩
    exact ⟨a, b, _, rfl, ⟨ha, rfl⟩, b, [], _, (List.append_nil _).symm, ⟨hb, rfl⟩, rfl, all_footer ..⟩

theorem plain_footer : Plain m o M env footer := by
  rw [footer_eq]
  exact Riff.plain_hint (Gzip.plain_letFormat Riff.plain_word (Gzip.plain_letFormat Riff.plain_word Riff.plain_compute))

theorem total_footer : Total m footer := by
  rw [footer_eq]
  exact total_hint fun codes s c => .letFormat ((fixed_word .b32 false).total _ _ _) fun _ _ _ _ =>
    .letFormat ((fixed_word .b32 false).total _ _ _) fun _ _ _ _ => .compute (all_footer ..)

section
variable {l : Nat} (h0 : m.items[l]? = some ⟨[], [], flagsFormat⟩)
include h0

theorem reads_header : Grammar.Reads m (header l) fun _ u v => ∃ h : Header, h.Valid ∧ u = h.encode ∧ v = h.value := by
  rw [header_eq]
  refine (reads_hint (reads_letFormat (reads_magic _ _) (reads_letFormat fixed_u8.reads (reads_letFormat (reads_item h0 reads_flags)
    (reads_letFormat (fixed_word .b32 false).reads (reads_letFormat fixed_u8.reads (reads_letFormat fixed_u8.reads reads_compute))))))).congr fun s u v => ?_
  constructor
  · rintro ⟨_, _, _, rfl, ⟨rfl, rfl⟩, u1, _, _, rfl, ⟨hu1, rfl⟩, _, _, _, rfl, ⟨b, rfl, rfl⟩, t, _, _, rfl, ⟨ht, rfl⟩, u2, _, _, rfl, ⟨hu2, rfl⟩,
      u3, _, _, rfl, ⟨hu3, rfl⟩, rfl, hv⟩
    obtain ⟨b1, rfl⟩ := List.length_eq_one_iff.1 hu1
    obtain ⟨b2, rfl⟩ := List.length_eq_one_iff.1 hu2
    obtain ⟨b3, rfl⟩ := List.length_eq_one_iff.1 hu3
    cases (all_header ..).symm.trans hv
    exact ⟨⟨b1, b, t, b2, b3⟩, ht, by simp [Header.encode], rfl⟩
  · rintro ⟨⟨b1, b, t, b2, b3⟩, ht, rfl, rfl⟩
    exact ⟨[0x1F, 0x8B], _, _, rfl, ⟨rfl, rfl⟩, [b1], _, _, rfl, ⟨rfl, rfl⟩, [b], _, _, rfl, ⟨b, rfl, rfl⟩, t, [b2, b3], _, rfl, ⟨ht, rfl⟩,
      [b2], [b3], _, rfl, ⟨rfl, rfl⟩, [b3], [], _, rfl, ⟨rfl, rfl⟩, rfl, all_header ..⟩

theorem plain_header (hM : ∀ level next k, ((level, next), k) ∈ M → ∃ it d, m.items[level]? = some it ∧ env.program[k]? = some d ∧
    Compiles (.of m o M) it.format next d) : Plain m o M env (header l) := by
  rw [header_eq]
  exact Riff.plain_hint (Gzip.plain_letFormat (plain_sequence fun f hf => by obtain ⟨b, -, rfl⟩ := List.mem_map.1 hf; exact Riff.plain_byte)
    (Gzip.plain_letFormat Riff.plain_u8 (Gzip.plain_letFormat (Tiff.plain_item hM h0 plain_flags) (Gzip.plain_letFormat Riff.plain_word
      (Gzip.plain_letFormat Riff.plain_u8 (Gzip.plain_letFormat Riff.plain_u8 Riff.plain_compute))))))

theorem total_header : Total m (header l) := by
  rw [header_eq]
  refine total_hint fun codes s c => .letFormat (.sequence fun i f vs c' k hf _ => ?_) fun _ _ _ _ => .letFormat (fixed_u8.total _ _ _) fun _ _ _ _ =>
    .letFormat (total_item h0 total_flags _ _ _) fun _ _ _ _ => .letFormat ((fixed_word .b32 false).total _ _ _) fun _ _ _ _ =>
      .letFormat (fixed_u8.total _ _ _) fun _ _ _ _ => .letFormat (fixed_u8.total _ _ _) fun _ _ _ _ => .compute (all_header ..)
  obtain ⟨b, -, rfl⟩ := List.mem_map.1 (List.mem_of_getElem? hf)
  exact .byte

end

end GzipHeader
end Doodle
