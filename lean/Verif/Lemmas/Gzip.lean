import Verif.Model.Gzip
import Verif.Spec.Gzip
import Verif.Lemmas.RiffFound

/-! The extra field of gzip: what it reads, and what decoders find. -/

namespace Doodle
namespace Gzip

open Grammar Compiler Helper Sound Predictive
open Riff (Runs Full Finds Plain Takes Scopes SafeIn)

variable {m : Module} {o : BuildOpts} {M : List ((Nat × Next) × Nat)} {env : Env}

theorem size_lt {u : List UInt8} (hu : u.length = 2) : littleEnd u < 2 ^ 16 := by
  have := littleEnd_lt u
  rw [hu] at this
  exact this

theorem denotes_size {e : Expr} {s : Scope Format} {u : List UInt8} (hx : Denotes e s (num .b16 (littleEnd u))) (n : Nat)
    (hu : u.length = 2) : DenotesNat e s n ↔ n = littleEnd u := by
  have hb : littleEnd u < 2 ^ 16 := size_lt hu
  have h2 : (num .b16 (littleEnd u)).unwrapUsize = .ok (littleEnd u) := by rw [num_eq (w := .b16) hb]; rfl
  constructor
  · rintro ⟨v, hv, hn⟩
    cases hx.symm.trans hv
    cases h2.symm.trans hn
    rfl
  · rintro rfl
    exact ⟨_, hx, h2⟩

theorem len_var (a b : Value) (s : Scope Format) (u : List UInt8) (n : Nat) (hu : u.length = 2) :
    DenotesNat (.var "len") (.single "len" (wordValue .b16 false u) (.single "si2" a (.single "si1" b s))) n ↔ n = littleEnd u := by
  refine denotes_size ?_ n hu
  rfl

theorem xlen_var (s : Scope Format) (u : List UInt8) (n : Nat) (hu : u.length = 2) :
    DenotesNat (.var "xlen") (.single "xlen" (wordValue .b16 false u) s) n ↔ n = littleEnd u := by
  refine denotes_size ?_ n hu
  rfl

/-- the record of a subfield, written out -/
theorem subfield_eq : subfield = .hint (.letFormat u8 "si1" (.letFormat u8 "si2" (.letFormat (word .b16 false) "len"
    (.letFormat (.repeatCount (.var "len") u8) "data"
      (.compute (.record [("si1", .var "si1"), ("si2", .var "si2"), ("len", .var "len"), ("data", .var "data")])))))) := rfl

/-- the record of an extra field, written out -/
theorem extra_eq (l : Nat) : extra l = .hint (.letFormat (word .b16 false) "xlen"
    (.letFormat (.slice (.var "xlen") (.repeat_ (.itemVar l [] []))) "subfields"
      (.compute (.record [("xlen", .var "xlen"), ("subfields", .var "subfields")])))) := rfl

theorem all_sub (s : Scope Format) (a b c d : Value) :
    Denotes (.record [("si1", .var "si1"), ("si2", .var "si2"), ("len", .var "len"), ("data", .var "data")])
      (.single "data" d (.single "len" c (.single "si2" b (.single "si1" a s))))
      (.record [("si1", a), ("si2", b), ("len", c), ("data", d)]) := rfl

theorem all_extra (s : Scope Format) (a b : Value) :
    Denotes (.record [("xlen", .var "xlen"), ("subfields", .var "subfields")]) (.single "subfields" b (.single "xlen" a s))
      (.record [("xlen", a), ("subfields", b)]) := rfl

theorem reads_sub : Grammar.Reads m subfield fun _ u v => ∃ x : Sub, x.Valid ∧ u = x.encode ∧ v = x.value := by
  rw [subfield_eq]
  refine (reads_hint (reads_letFormat fixed_u8.reads (reads_letFormat fixed_u8.reads (reads_letFormat (fixed_word .b16 false).reads
    (reads_letFormat (reads_repeatCount fixed_u8.reads) reads_compute))))).congr fun s u v => ?_
  constructor
  · rintro ⟨u1, _, _, rfl, ⟨hu1, rfl⟩, u2, _, _, rfl, ⟨hu2, rfl⟩, size, _, _, rfl, ⟨hs, rfl⟩, d, _, _, rfl, ⟨n, vs, hn, hp, hl, rfl⟩, rfl, hv⟩
    obtain ⟨b1, rfl⟩ := List.length_eq_one_iff.1 hu1
    obtain ⟨b2, rfl⟩ := List.length_eq_one_iff.1 hu2
    replace hs : size.length = 2 := hs
    cases (all_sub ..).symm.trans hv
    obtain rfl := Riff.pieces_bytes.1 hp
    rw [List.length_map] at hl
    refine ⟨⟨b1, b2, size, d⟩, ⟨hs, ?_⟩, by simp [Sub.encode], rfl⟩
    exact ((len_var _ _ _ _ _ hs).1 hn).symm.trans hl.symm
  · rintro ⟨⟨b1, b2, size, d⟩, ⟨hs, hn⟩, rfl, rfl⟩
    exact ⟨[b1], _, _, rfl, ⟨rfl, rfl⟩, [b2], _, _, rfl, ⟨rfl, rfl⟩, size, d, _, rfl, ⟨hs, rfl⟩, d, [], _, (List.append_nil _).symm,
      ⟨littleEnd size, _, (len_var _ _ _ _ _ hs).2 rfl, Riff.pieces_bytes.2 rfl, by rw [List.length_map]; exact hn.symm, rfl⟩, rfl, all_sub ..⟩

theorem sub_long {x : Sub} : x.encode ≠ [] := by simp [Sub.encode]

theorem takes_sub : Takes m subfield := by rw [subfield_eq]; exact Riff.takes_hint (Riff.takes_letFormat Riff.takes_u8)

theorem plain_word16 : Plain m o M env (word .b16 false) := Riff.plain_hint (Riff.plain_map (Riff.plain_tuple fun f hf => by
  rw [List.eq_of_mem_replicate hf]; exact Riff.plain_byte))

theorem plain_letFormat {f g : Format} {x : String} (h : Plain m o M env f) (h' : Plain m o M env g) : Plain m o M env (.letFormat f x g) := by
  intro next d s s' c v c' k hp hc hs
  cases hp with
  | letFormat h1 h2 =>
    cases hc with
    | letFormat hc1 hc2 =>
      obtain ⟨N, w, h3, h4, h5⟩ := h _ _ _ _ _ _ _ _ h1 hc1 hs
      obtain ⟨N', w', h6, h7, h8⟩ := h' _ _ _ _ _ _ _ _ h2 hc2 hs.single
      refine .mk (N := max N N') (w := ⟨w'.value, w'.errs ++ w.errs⟩) (fun n hn => ?_) h7 (by simp [h5, h8]; omega)
      unfold Decoder.parse
      refine Outcome.bind_eq_ok.2 ⟨_, h3 n (by omega), Outcome.bind_eq_ok.2 ⟨w', ?_, rfl⟩⟩
      rw [h4]
      exact h6 n (by omega)

theorem plain_steps {f : Format} (h : Plain m o M env f) {next : Next} {d : Decoder} {s : Scope Format} {s' : Scope Decoder}
    (hc : Compiles (.of m o M) f next d) (hs : Scopes m o M s s') : ∀ {vs c c' k}, ParsesMany m never f s c vs c' k →
    Steps env d s' (fun _ _ => True) c vs c' k
  | [], _, _, _, hp => by cases hp; exact .nil trivial
  | v :: vs, _, _, _, hp => by
    cases hp with
    | mcons h1 h2 => exact .cons trivial (h _ _ _ _ _ _ _ _ h1 hc hs) (plain_steps h hc hs h2)

theorem plain_repeatCount {f : Format} {e : Expr} (h : Plain m o M env f) : Plain m o M env (.repeatCount e f) := by
  intro next d s s' c v c' k hp hc hs
  cases hp with
  | repeatCount hd hp hl =>
    cases hc with
    | repeatCount hc =>
      obtain ⟨N, acc, h1, h2, h3⟩ := (plain_steps h hc hs hp).fold (.new ([], _)) rfl
      refine .mk (N := N) (w := acc.map fun r => (.seq (.strict r.1), r.2)) (fun n hn => ?_) (by simp only [WithErr.map, h2]; rfl) h3
      unfold Decoder.parse
      exact Outcome.bind_eq_ok.2 ⟨_, Outcome.ofPanicky_eq_ok.2 (evalUsize_of hs hd),
        Outcome.bind_eq_ok.2 ⟨_, by rw [← hl]; exact h1 n hn, rfl⟩⟩

theorem plain_sub : Plain m o M env subfield := by
  rw [subfield_eq]
  exact Riff.plain_hint (plain_letFormat Riff.plain_u8 (plain_letFormat Riff.plain_u8 (plain_letFormat plain_word16
    (plain_letFormat (plain_repeatCount Riff.plain_u8) Riff.plain_compute))))

section
variable (hl : Linked (.both m o M) m env) (ho : o.ord.Valid)
  (hM : ∀ level next k, ((level, next), k) ∈ M → ∃ it d, m.items[level]? = some it ∧ env.program[k]? = some d ∧
    Compiles (.of m o M) it.format next d)
  {l : Nat} (h0 : m.items[l]? = some ⟨[], [], subfield⟩)
include hM h0 ho

theorem finds_extra : Finds False m o M env (extra l) fun _ u v => ∃ x : Extra, x.Valid ∧ u = x.encode ∧ v = x.value := by
  rw [extra_eq]
  refine (Riff.finds_hint (Riff.finds_letFormat (plain_word16.finds (fixed_word .b16 false).reads)
    (Riff.finds_letFormat (Riff.finds_slice (Riff.finds_repeat ho (Riff.takes_item h0 takes_sub) ?_ (Riff.finds_item hM h0 (plain_sub.finds reads_sub))))
      (Riff.plain_compute.finds reads_compute)))).mono fun s u v => ?_
  · rintro s _ v ⟨x, _, rfl, _⟩; exact sub_long
  · rintro ⟨⟨size, subs⟩, ⟨hs, hv, hn⟩, rfl, rfl⟩
    exact ⟨size, _, _, rfl, ⟨hs, rfl⟩, subs.flatMap Sub.encode, [], _, (List.append_nil _).symm,
      ⟨(xlen_var _ _ _ hs).2 hn.symm, _, pieces_made.2 ⟨subs, hv, rfl, rfl⟩, rfl⟩, rfl, all_extra ..⟩

include hl

theorem runs_extra : Runs m o M env (extra l) fun _ u v => ∃ x : Extra, x.Valid ∧ u = x.encode ∧ v = x.value := by
  rw [extra_eq]
  refine (Riff.runs_hint (Riff.runs_letFormat (Riff.runs_of_reads hl (fixed_word .b16 false).reads)
    (Riff.runs_letFormat (Riff.runs_slice hl (reads_repeat (reads_item h0 reads_sub))
      (Riff.runs_repeat (Riff.runs_item hM h0 (Riff.runs_of_reads hl reads_sub))) (Riff.full_repeat ho (Riff.takes_item h0 takes_sub)))
      (Riff.runs_of_reads hl reads_compute)))).mono fun s u v => ?_
  rintro ⟨size, _, _, rfl, ⟨hs, rfl⟩, w, _, _, rfl, ⟨hn, vs, hp, rfl⟩, rfl, hv⟩
  replace hs : size.length = 2 := hs
  obtain ⟨subs, h1, rfl, rfl⟩ := pieces_made.1 hp
  cases (all_extra ..).symm.trans hv
  exact ⟨⟨size, subs⟩, ⟨hs, h1, ((xlen_var _ _ _ hs).1 hn).symm⟩, by rw [List.append_nil]; rfl, rfl⟩

end

theorem safe_sub : SafeIn m subfield := by
  refine Riff.Total.safeIn ?_
  rw [subfield_eq]
  refine total_hint fun codes s c => .letFormat (fixed_u8.total codes s c) fun v1 c1 k1 _ =>
    .letFormat (fixed_u8.total _ _ _) fun v2 c2 k2 _ => .letFormat ((fixed_word .b16 false).total _ _ _) fun v3 c3 k3 hp =>
      .letFormat ?_ fun v4 c4 k4 _ => .compute (all_sub ..)
  obtain ⟨size, _, _, ⟨hs, rfl⟩, _⟩ := ((fixed_word .b16 false).reads ..).1 hp
  exact .repeatCount ((len_var _ _ _ _ _ hs).2 rfl) fun vs c' k _ _ => fixed_u8.total _ _ _

theorem safe_extra {l : Nat} (h0 : m.items[l]? = some ⟨[], [], subfield⟩) : SafeIn m (extra l) := by
  rw [extra_eq]
  intro codes s c hc hz
  refine .hint (.letFormat ((fixed_word .b16 false).total _ _ _) fun v1 c1 k1 hp => ?_)
  obtain ⟨size, r, e, ⟨hs, rfl⟩, rfl, rfl⟩ := ((fixed_word .b16 false).reads ..).1 hp
  have hc1 := Riff.step_within hc e
  have hn := size_lt (u := size) hs
  refine .letFormat (.slice ((xlen_var _ _ _ hs).2 rfl) ?_ fun hle => ?_) fun v2 c2 k2 _ => .compute (all_extra ..)
  · dsimp only; omega
  · refine Riff.safe_repeat (reads_item h0 reads_sub) (Riff.safe_item h0 safe_sub) _ _ _ ?_ ?_
    · dsimp only at hle ⊢
      rw [List.length_take]; omega
    · dsimp only
      rw [List.length_take]; omega

end Gzip
end Doodle
