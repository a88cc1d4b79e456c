import Verif.Lemmas.Tiff
import Verif.Lemmas.Gzip

/-! TIFF headers: decoders find all of them. -/

namespace Doodle
namespace Tiff

open Grammar Compiler Helper Formats Predictive
open Riff (Scopes Plain Finds plain_hint plain_map plain_tuple plain_byte plain_u8 plain_compute plain_bytes)

section
variable {m : Module} {o : BuildOpts} {M : List ((Nat × Next) × Nat)} {env : Env} {f g : Format}

theorem plain_word (w : Num.BitWidth) (be : Bool) : Plain m o M env (word w be) := by
  cases w <;> cases be <;> exact plain_hint (by
    first
    | exact plain_map (plain_tuple fun f hf => by rw [List.eq_of_mem_replicate hf]; exact plain_byte)
    | exact plain_byte)

theorem plain_variant {l : String} (h : Plain m o M env f) : Plain m o M env (.variant l f) := by
  intro next d s s' c v c' k hp hc hs
  cases hp with
  | variant hp =>
    cases hc with
    | variant hc =>
      refine (h _ _ _ _ _ _ _ _ hp hc hs).wrap (fun r => (.variant l r.1, r.2)) (fun n w h6 _ _ => ?_) rfl
      unfold Decoder.parse
      exact Outcome.bind_eq_ok.2 ⟨_, h6, rfl⟩

theorem plain_pos : Plain m o M env .pos := by
  intro next d s s' c v c' k hp hc hs
  cases hp
  cases hc
  refine .mk (N := 0) (w := .new _) (fun n _ => ?_) rfl rfl
  unfold Decoder.parse
  rfl

theorem plain_match {e : Expr} {bs : List (Pattern × Format)} (h : ∀ b ∈ bs, Plain m o M env b.2) : Plain m o M env (.match_ e bs) := by
  intro next d s s' c v c' k hp hc hs
  cases hp with
  | match_ hh hi hq hno hp =>
    cases hc with
    | match_ hc =>
      obtain ⟨d, h1, h2⟩ := CompilesBranches.at hc hi hq hno
      refine (h _ (List.mem_of_getElem? hi) _ _ _ _ _ _ _ _ hp h1 (hs.withBindings _)).wrap
        (fun r => (.branch _ r.1, r.2)) (fun n w h6 h7 _ => ?_) rfl
      unfold Decoder.parse
      refine Outcome.bind_eq_ok.2 ⟨_, Outcome.ofPanicky_eq_ok.2 (by rw [hs.eval]; exact hh), ?_⟩
      rw [h2]
      exact Outcome.bind_eq_ok.2 ⟨_, h6, by rw [Nat.zero_add]⟩

theorem plain_item (hM : ∀ level next k, ((level, next), k) ∈ M → ∃ it d, m.items[level]? = some it ∧ env.program[k]? = some d ∧
    Compiles (.of m o M) it.format next d) {l : Nat} (hi : m.items[l]? = some ⟨[], [], f⟩) (h : Plain m o M env f) :
    Plain m o M env (.itemVar l [] []) := by
  intro next d s s' c v c' k hp hc hs
  cases hp with
  | itemVar a1 a2 a3 a4 =>
  rw [hi] at a1
  cases a1
  cases a2
  cases a3
  cases hc with
  | @itemVar _ _ _ it' _ dep k h1 h2 h3 =>
    obtain ⟨it'', d, h4, h5, h6⟩ := hM _ _ _ h3
    rw [hi] at h4
    rw [show m.items[l]? = some it' from h1] at hi
    cases hi
    cases h4
    refine (h _ _ _ (.multi [] .empty) _ _ _ _ a4 h6 (.multi .empty)).wrap id (fun n w h6 _ _ => ?_) rfl
    unfold Decoder.parse
    exact Outcome.bind_eq_ok.2 ⟨_, rfl, Outcome.bind_eq_ok.2 ⟨_, rfl, Outcome.bind_eq_ok.2 ⟨_, Outcome.ofPanicky_eq_ok.2 (Compiler.unwrap_eq_ok.2 h5), h6⟩⟩⟩

theorem contains_one {b x : UInt8} : (ByteSet.fromIter [b]).contains x = true ↔ x = b := by
  rw [ByteSet.C01_contains_fromIter, List.mem_singleton]

theorem goes_mark {l : String} {x y : UInt8} {next : Next} {c : ReadCtxt} (h : At c x) : Goes m (.cat (.variant l (isBytes [x, y])) next) c := by
  intro n s hs
  match n with
  | 0 => simp [Next.step] at hs
  | 1 => simp [Next.step, Format.step] at hs
  | 2 => simp [Next.step, Format.step] at hs
  | 3 => simp [Next.step, Format.step, isBytes] at hs
  | n + 4 =>
    simp only [Next.step, Format.step, isBytes, List.map, isByte] at hs
    cases hs
    exact .inr ⟨x, h, _, .head _, contains_one.2 rfl⟩

theorem not_begins {l : String} {x y b : UInt8} {next : Next} (h : b ≠ x) : ¬ Begins m b (.cat (.variant l (isBytes [x, y])) next) := by
  rintro (h1 | ⟨h1, -⟩)
  · cases h1 with
    | variant h1 =>
      rcases starts_cons.1 h1 with h1 | ⟨h1, -⟩
      · cases h1 with
        | byte h1 => exact h (contains_one.1 h1)
      · cases h1
  · cases h1 with
    | variant h1 =>
      cases h1 with
      | tuple h1 => cases h1 (isByte x) (by simp)

theorem plain_orders (ho : o.ord.Valid) : Plain m o M env orders := by
  intro next d s s' c v c' k hp hc hs
  have hp0 := hp
  obtain ⟨u, rest, e1, ⟨be, rfl, rfl⟩, rfl, rfl⟩ := (reads_orders ..).1 hp0
  cases hc with
  | @union _ _ ds t hc ht =>
    have hb : At c (if be then 0x4D else 0x49) := by
      unfold At
      rw [← Nat.add_zero c.offset, ← List.getElem?_drop, e1]
      cases be <;> rfl
    have hi : [Format.variant "le" (isBytes [0x49, 0x49]), Format.variant "be" (isBytes [0x4D, 0x4D])][(if be then 1 else 0)]? =
        some (.variant (if be then "be" else "le") (isBytes [if be then 0x4D else 0x49, if be then 0x4D else 0x49])) := by
      cases be <;> rfl
    obtain ⟨d, h1, h2⟩ := CompilesAll.at hc hi
    have hsel : t.matches c = some (if be then 1 else 0) := select1 ho ht hi (goes_mark hb) (fun b hb' j g hj hne => by
      have hbb : b = (if be then 0x4D else 0x49) := Option.some.inj ((show _ = some b from hb').symm.trans hb)
      match j with
      | 0 => cases hj; cases be with
        | false => exact absurd rfl hne
        | true => exact not_begins (by rw [hbb]; decide)
      | 1 => cases hj; cases be with
        | true => exact absurd rfl hne
        | false => exact not_begins (by rw [hbb]; decide)
      | j + 2 => simp at hj)
    have hpv : Parses m never (.variant (if be then "be" else "le") (isBytes [if be then 0x4D else 0x49, if be then 0x4D else 0x49])) s c
        (.variant (if be then "be" else "le") (.tuple ((mark be).map Value.u8))) ⟨c.input, c.offset + (mark be).length⟩ 0 := by
      refine .variant (((exactly_bytes _).reads ..).2 ⟨mark be, rest, e1, ⟨?_, ?_⟩, rfl, rfl⟩) <;> cases be <;> rfl
    refine (plain_variant (plain_bytes _) _ _ _ _ _ _ _ _ hpv h2 hs).wrap (fun r => (.branch _ r.1, r.2)) (fun n w h6 _ _ => ?_) rfl
    unfold Decoder.parse
    simp only [hsel]
    exact Outcome.bind_eq_ok.2 ⟨_, Outcome.ofPanicky_eq_ok.2 (Compiler.unwrap_eq_ok.2 h1), Outcome.bind_eq_ok.2 ⟨_, h6, rfl⟩⟩

theorem plain_entry (be : Bool) : Plain m o M env (entry be) := by
  rw [entry_eq]
  exact plain_hint (Gzip.plain_letFormat (plain_word .b16 be) (Gzip.plain_letFormat (plain_word .b16 be) (Gzip.plain_letFormat (plain_word .b32 be)
    (Gzip.plain_letFormat (plain_word .b32 be) plain_compute))))

theorem finds_opaque (ho : o.ord.Valid) : Finds True m o M env (.repeat_ u8) fun _ u v => v = .seq (.strict (u.map Value.u8)) :=
  (Riff.finds_repeat (L := fun _ u v => u.length = 1 ∧ v = .u8 (u.headD 0)) ho Riff.takes_u8 (fun s u v h => by rintro rfl; cases h.1)
    (plain_u8.finds fixed_u8.reads)).mono fun s u v hv => by
      subst hv
      refine ⟨u.map Value.u8, ?_, rfl⟩
      induction u with
      | nil => exact .nil
      | cons b u ih => exact .cons (u := [b]) ⟨rfl, rfl⟩ ih

theorem finds_directory (ho : o.ord.Valid) (be : Bool) :
    Finds True m o M env (directory be) fun _ u v => ∃ d : Directory, d.Valid be ∧ u = d.encode ∧ v = d.value be := by
  rw [directory_eq]
  refine (Riff.finds_hint (Riff.finds_letFormat ((plain_word .b16 be).finds (word16 be)) (Riff.finds_letFormat
    ((Gzip.plain_repeatCount (plain_entry be)).finds (reads_repeatCount (reads_entry be))) (Riff.finds_letFormat ((plain_word .b32 be).finds (word32 be))
    (Riff.finds_last (finds_opaque ho)))))).mono fun s u v => ?_
  rintro ⟨⟨a, es, c, d⟩, ⟨ha, he, hn, hc⟩, rfl, rfl⟩
  exact ⟨a, es.flatMap Entry.encode ++ (c ++ d), _, by simp [Directory.encode], ⟨ha, rfl⟩, es.flatMap Entry.encode, c ++ d, _, rfl,
    ⟨number be a, _, (count_var be _ _ _ ha).2 rfl, pieces_made.2 ⟨es, he, rfl, rfl⟩, by rw [List.length_map]; exact hn.symm, rfl⟩,
    c, d, _, rfl, ⟨hc, rfl⟩, _, rfl, all_directory ..⟩

theorem found_seek {e1 e2 : Expr} {d : Decoder} {s : Scope Format} {s' : Scope Decoder} {c c' : ReadCtxt} {v : Value} {a b : Nat}
    (hs : Scopes m o M s s') (h1 : DenotesNat e1 s a) (h2 : DenotesNat e2 s b) (hz : c.input.length < usizeCard) (hle : a + b ≤ c.input.length)
    (h : Found env d s' ⟨c.input, a + b⟩ v c' 0) : Found env (.withRelativeOffset e1 e2 d) s' c v c 0 := by
  refine h.wrap (fun r => (r.1, c)) (fun n w h6 _ _ => ?_) rfl
  unfold Decoder.parse
  refine Outcome.bind_eq_ok.2 ⟨_, Outcome.ofPanicky_eq_ok.2 (evalUsize_of hs h1), Outcome.bind_eq_ok.2 ⟨_, Outcome.ofPanicky_eq_ok.2 (evalUsize_of hs h2),
    Outcome.bind_eq_ok.2 ⟨a + b, Outcome.ofPanicky_eq_ok.2 (if_pos (by omega)), ?_⟩⟩⟩
  rw [show c.seekTo (a + b) = some ⟨c.input, a + b⟩ from if_pos hle]
  exact Outcome.bind_eq_ok.2 ⟨_, h6, rfl⟩

section
variable {l : Nat} (ho : o.ord.Valid)
  (hM : ∀ level next k, ((level, next), k) ∈ M → ∃ it d, m.items[level]? = some it ∧ env.program[k]? = some d ∧
    Compiles (.of m o M) it.format next d)
  (h0 : m.items[l]? = some ⟨[], [], directory false⟩) (h1 : m.items[l + 1]? = some ⟨[], [], directory true⟩)
  (h2 : m.items[l + 2]? = some ⟨[], [], orders⟩)
  (h3 : m.items[l + 3]? = some ⟨["byte-order"], [], byOrder (.itemVar l [] []) (.itemVar (l + 1) [] [])⟩)
include ho hM h0 h1 h3

/-- the call of the directory, where nothing comes after it -/
theorem found_called {be : Bool} {d : Decoder} {s : Scope Format} {s' : Scope Decoder} {c : ReadCtxt} (x : Directory) (hx : x.Valid be)
    (hs : (Expr.var "byte-order").eval s = .ok (order be))
    (hc : Compiles (.of m o M) (.itemVar (l + 3) [.var "byte-order"] []) .empty d) (hss : Scopes m o M s s') (hz : c.input.length < usizeCard)
    (hi : c.offset ≤ c.input.length) (hd : c.input.drop c.offset = x.encode) :
    Found env d s' c (which be (x.value be)) ⟨c.input, c.offset + x.encode.length⟩ 0 := by
  have hv : Denotes (.var "byte-order") s (order be).coerceMapped := by
    unfold Denotes Expr.evalValue
    rw [hs]
    rfl
  cases hc with
  | @itemVar _ _ _ it' _ dep k a1 a2 a3 =>
    obtain ⟨it'', d, a4, a5, a6⟩ := hM _ _ _ a3
    cases h3.symm.trans a4
    cases h3.symm.trans (show m.items[l + 3]? = some it' from a1)
    rw [show (if dep = true then Next.empty else Next.empty) = Next.empty by split <;> rfl] at a6
    cases a6 with
    | @match_ _ _ _ ds a6 =>
      have ho' : (order be).coerceMapped.coerceNominal = (order be).coerceNominal := by cases be <;> rfl
      have hm := matches_order ho' (f := .itemVar l [] []) (g := .itemVar (l + 1) [] [])
      have hib : [(Pattern.variant "le" .wildcard, Format.itemVar l [] []), (.variant "be" .wildcard, .itemVar (l + 1) [] [])][(if be then 1 else 0)]? =
          some (.variant (if be then "be" else "le") .wildcard, if be then .itemVar (l + 1) [] [] else .itemVar l [] []) := by cases be <;> rfl
      obtain ⟨d', b1, b2⟩ := CompilesBranches.at a6 hib (by rw [hm _ _ _ hib, if_pos rfl]) (fun j hj q h hq => by
        rw [hm j q h hq, if_neg (by omega)])
      have hf : Finds True m o M env (if be then .itemVar (l + 1) [] [] else .itemVar l [] []) fun _ u v =>
          ∃ d : Directory, d.Valid be ∧ u = d.encode ∧ v = d.value be := by
        cases be
        · exact Riff.finds_item hM h0 (finds_directory ho false)
        · exact Riff.finds_item hM h1 (finds_directory ho true)
      have hsc : Scopes m o M ((.multi [("byte-order", .value (order be).coerceMapped)] .empty : Scope Format).withBindings [])
          ((.multi [("byte-order", .value (order be).coerceMapped)] .empty : Scope Decoder).withBindings []) :=
        ScopeRel.withBindings (.multi .empty) []
      have hin := hf _ _ _ _ c x.encode [] (x.value be) b1 hsc hz hi (by rw [hd, List.append_nil]) ⟨x, hx, rfl, rfl⟩
        fun _ => ⟨rfl, fun b h => h, .empty⟩
      have hin2 : Found env (.match_ (.var "byte-order") ds) (.multi [("byte-order", .value (order be).coerceMapped)] .empty) c
          (which be (x.value be)) ⟨c.input, c.offset + x.encode.length⟩ 0 := by
        refine hin.wrap (fun r => (.branch (if be then 1 else 0) r.1, r.2)) (fun n w h6 _ _ => ?_) rfl
        unfold Decoder.parse
        refine Outcome.bind_eq_ok.2 ⟨(order be).coerceMapped, Outcome.ofPanicky_eq_ok.2 (by cases be <;> rfl), ?_⟩
        rw [b2]
        exact Outcome.bind_eq_ok.2 ⟨_, h6, by rw [Nat.zero_add]⟩
      refine hin2.wrap id (fun n w h6 _ _ => ?_) rfl
      unfold Decoder.parse
      refine Outcome.bind_eq_ok.2 ⟨[("byte-order", .value (order be).coerceMapped)], ?_, Outcome.bind_eq_ok.2 ⟨[], rfl,
        Outcome.bind_eq_ok.2 ⟨_, Outcome.ofPanicky_eq_ok.2 (Compiler.unwrap_eq_ok.2 a5), h6⟩⟩⟩
      exact Outcome.bind_eq_ok.2 ⟨_, Outcome.ofPanicky_eq_ok.2 (by rw [hss.evalValue]; exact hv), rfl⟩

include h2

/-- Every header with a directory that goes on to the end of the input is found. -/
theorem found_header {next : Next} {d : Decoder} {s : Scope Format} {s' : Scope Decoder} {c : ReadCtxt} (h : Header) (x : Directory)
    (rest : List UInt8) (hh : h.Valid) (hx : x.Valid h.be) (hc : Compiles (.of m o M) (header l) next d) (hss : Scopes m o M s s')
    (hz : c.input.length < usizeCard) (e1 : c.input.drop c.offset = h.encode ++ rest)
    (e2 : c.input.drop (c.offset + number h.be h.offset) = x.encode) :
    Found env d s' c (h.value c.offset x) ⟨c.input, c.offset + h.encode.length⟩ 0 := by
  obtain ⟨be, mg, of⟩ := h
  obtain ⟨l3, l4⟩ := hh
  dsimp only [Header.encode] at e1 e2 l3 l4 hx ⊢
  rw [List.append_assoc, List.append_assoc] at e1
  have hcu : usizeCard = 2 ^ 64 := rfl
  have hle : c.offset + number be of ≤ c.input.length := by
    have := congrArg List.length e2
    simp only [List.length_drop, List.length_append, Directory.encode, hx.1] at this
    omega
  have hc64 : c.offset < 2 ^ 64 := by omega
  rw [show c.offset + (mark be ++ mg ++ of).length = c.offset + (mark be).length + mg.length + of.length by simp [Nat.add_assoc]]
  rw [header_eq] at hc
  cases hc with
  | hint hc =>
  cases hc with
  | letFormat q1 hc =>
  cases hc with
  | letFormat q2 hc =>
  cases hc with
  | letFormat q3 hc =>
  cases hc with
  | letFormat q4 hc =>
  cases hc with
  | letFormat q5 q6 =>
  have s1 := hss.single (x := "start_of_header") (v := (num .b64 c.offset))
  have s2 := s1.single (x := "byte-order") (v := (order be))
  have s3 := s2.single (x := "magic") (v := (which be (short be mg)))
  have s4 := s3.single (x := "offset") (v := (which be (long be of)))
  have s5 := s4.single (x := "ifd") (v := (which be (x.value be)))
  have hw16 : Grammar.Reads m (if be then word .b16 true else word .b16 false) fun _ u v => u.length = 2 ∧ v = short be u := by
    cases be
    · exact word16 false
    · exact word16 true
  have hw32 : Grammar.Reads m (if be then word .b32 true else word .b32 false) fun _ u v => u.length = 4 ∧ v = long be u := by
    cases be
    · exact word32 false
    · exact word32 true
  refine Riff.found_letFormat (plain_pos _ _ _ _ _ _ _ _ .pos q1 hss) ?_
  refine Riff.found_letFormat (plain_item hM h2 (plain_orders ho) _ _ _ _ _ _ _ _ ((reads_item h2 reads_orders ..).2
    ⟨mark be, _, e1, ⟨be, rfl, rfl⟩, rfl, rfl⟩) q2 s1) ?_
  refine Riff.found_letFormat (plain_match (fun b hb => ?_) _ _ _ _ _ _ _ _ ((by_order_reads (order1 be _) rfl hw16).2
    ⟨mg, of ++ rest, _, drop_step e1, ⟨l3, rfl⟩, rfl, rfl, rfl⟩) q3 s2) ?_
  · simp only [List.mem_cons, List.not_mem_nil, or_false] at hb
    rcases hb with rfl | rfl <;> exact plain_word _ _
  refine Riff.found_letFormat (plain_match (fun b hb => ?_) _ _ _ _ _ _ _ _ ((by_order_reads (order2 be _ _) rfl hw32).2
    ⟨of, rest, _, drop_step (c := ⟨c.input, c.offset + (mark be).length⟩) (drop_step e1), ⟨l4, rfl⟩, rfl, rfl, rfl⟩) q4 s3) ?_
  · simp only [List.mem_cons, List.not_mem_nil, or_false] at hb
    rcases hb with rfl | rfl <;> exact plain_word _ _
  cases q5 with
  | withRelativeOffset q5 =>
  refine Riff.found_letFormat (found_seek s4 ((start_var hc64 _ _ _ _).2 rfl) ((offset_var be _ _ _ l4).2 rfl) hz hle
    (found_called ho hM h0 h1 h3 x hx (order3 be _ _ _) q5 s4 hz hle e2)) ?_
  exact plain_compute _ _ _ _ _ _ _ _ (.compute (all_header ..)) q6 s5

end

end
end Tiff
end Doodle
