import Verif.Model.Tiff
import Verif.Spec.Tiff
import Verif.Lemmas.Riff

/-! TIFF headers: what is derived. -/

namespace Doodle
namespace Tiff

open Grammar Helper Formats

variable {m : Module}

theorem word16 (be : Bool) : Grammar.Reads m (word .b16 be) fun _ u v => u.length = 2 ∧ v = short be u := (fixed_word .b16 be).reads

theorem word32 (be : Bool) : Grammar.Reads m (word .b32 be) fun _ u v => u.length = 4 ∧ v = long be u := (fixed_word .b32 be).reads

theorem number_lt (be : Bool) (u : List UInt8) : number be u < 2 ^ (8 * u.length) := by
  rw [Nat.pow_mul]
  cases be
  · exact littleEnd_lt u
  · exact bigEnd_lt u

theorem denotes_num {w : Num.BitWidth} {e : Expr} {s : Scope Format} {k : Nat} (hx : Denotes e s (num w k)) (hk : k < 2 ^ w.bits) (n : Nat) :
    DenotesNat e s n ↔ n = k := by
  have h2 : (num w k).unwrapUsize = .ok k := by
    rw [num_eq hk]
    cases w <;> rfl
  constructor
  · rintro ⟨v, hv, hn⟩
    cases hx.symm.trans hv
    cases h2.symm.trans hn
    rfl
  · rintro rfl
    exact ⟨_, hx, h2⟩

theorem entry_eq (be : Bool) : entry be = .hint (.letFormat (word .b16 be) "tag" (.letFormat (word .b16 be) "type"
    (.letFormat (word .b32 be) "length" (.letFormat (word .b32 be) "offset-or-data"
      (.compute (.record [("tag", .var "tag"), ("type", .var "type"), ("length", .var "length"),
        ("offset-or-data", .var "offset-or-data")])))))) := rfl

theorem all_entry (s : Scope Format) (a b c d : Value) :
    Denotes (.record [("tag", .var "tag"), ("type", .var "type"), ("length", .var "length"), ("offset-or-data", .var "offset-or-data")])
      (.single "offset-or-data" d (.single "length" c (.single "type" b (.single "tag" a s))))
      (.record [("tag", a), ("type", b), ("length", c), ("offset-or-data", d)]) := rfl

theorem reads_entry (be : Bool) : Grammar.Reads m (entry be) fun _ u v => ∃ e : Entry, e.Valid ∧ u = e.encode ∧ v = e.value be := by
  rw [entry_eq]
  refine (reads_hint (reads_letFormat (word16 be) (reads_letFormat (word16 be) (reads_letFormat (word32 be)
    (reads_letFormat (word32 be) reads_compute))))).congr fun s u v => ?_
  constructor
  · rintro ⟨a, _, _, rfl, ⟨ha, rfl⟩, b, _, _, rfl, ⟨hb, rfl⟩, c, _, _, rfl, ⟨hc, rfl⟩, d, _, _, rfl, ⟨hd, rfl⟩, rfl, hv⟩
    cases (all_entry ..).symm.trans hv
    exact ⟨⟨a, b, c, d⟩, ⟨ha, hb, hc, hd⟩, by simp [Entry.encode], rfl⟩
  · rintro ⟨⟨a, b, c, d⟩, ⟨ha, hb, hc, hd⟩, rfl, rfl⟩
    exact ⟨a, b ++ (c ++ d), _, by simp [Entry.encode], ⟨ha, rfl⟩, b, c ++ d, _, rfl, ⟨hb, rfl⟩, c, d, _, rfl, ⟨hc, rfl⟩, d, [], _,
      (List.append_nil _).symm, ⟨hd, rfl⟩, rfl, all_entry ..⟩

theorem directory_eq (be : Bool) : directory be = .hint (.letFormat (word .b16 be) "num-fields"
    (.letFormat (.repeatCount (.var "num-fields") (entry be)) "fields" (.letFormat (word .b32 be) "next-ifd-offset"
      (.letFormat (.repeat_ u8) "next-ifd" (.compute (.record [("num-fields", .var "num-fields"), ("fields", .var "fields"),
        ("next-ifd-offset", .var "next-ifd-offset"), ("next-ifd", .var "next-ifd")])))))) := rfl

theorem all_directory (s : Scope Format) (a b c d : Value) :
    Denotes (.record [("num-fields", .var "num-fields"), ("fields", .var "fields"), ("next-ifd-offset", .var "next-ifd-offset"),
        ("next-ifd", .var "next-ifd")])
      (.single "next-ifd" d (.single "next-ifd-offset" c (.single "fields" b (.single "num-fields" a s))))
      (.record [("num-fields", a), ("fields", b), ("next-ifd-offset", c), ("next-ifd", d)]) := rfl

theorem count_var (be : Bool) (s : Scope Format) (u : List UInt8) (n : Nat) (hu : u.length = 2) :
    DenotesNat (.var "num-fields") (.single "num-fields" (short be u) s) n ↔ n = number be u := by
  refine denotes_num (w := .b16) ?_ ?_ n
  · rfl
  · have := number_lt be u
    rw [hu] at this
    exact this

theorem reads_directory (be : Bool) :
    Grammar.Reads m (directory be) fun _ u v => ∃ d : Directory, d.Valid be ∧ u = d.encode ∧ v = d.value be := by
  rw [directory_eq]
  refine (reads_hint (reads_letFormat (word16 be) (reads_letFormat (reads_repeatCount (reads_entry be)) (reads_letFormat (word32 be)
    (reads_letFormat Riff.reads_opaque reads_compute))))).congr fun s u v => ?_
  constructor
  · rintro ⟨a, _, _, rfl, ⟨ha, rfl⟩, b, _, _, rfl, ⟨n, vs, hn, hp, hl, rfl⟩, c, _, _, rfl, ⟨hc, rfl⟩, d, _, _, rfl, rfl, rfl, hv⟩
    cases (all_directory ..).symm.trans hv
    obtain ⟨es, he, rfl, rfl⟩ := pieces_made.1 hp
    rw [List.length_map] at hl
    exact ⟨⟨a, es, c, d⟩, ⟨ha, he, ((count_var be _ _ _ ha).1 hn).symm.trans hl.symm, hc⟩, by simp [Directory.encode], rfl⟩
  · rintro ⟨⟨a, es, c, d⟩, ⟨ha, he, hn, hc⟩, rfl, rfl⟩
    exact ⟨a, es.flatMap Entry.encode ++ (c ++ d), _, by simp [Directory.encode], ⟨ha, rfl⟩, es.flatMap Entry.encode, c ++ d, _, rfl,
      ⟨number be a, _, (count_var be _ _ _ ha).2 rfl, pieces_made.2 ⟨es, he, rfl, rfl⟩, by rw [List.length_map]; exact hn.symm, rfl⟩,
      c, d, _, rfl, ⟨hc, rfl⟩, d, [], _, (List.append_nil _).symm, rfl, rfl, all_directory ..⟩

theorem reads_orders : Grammar.Reads m orders fun _ u v => ∃ be, u = mark be ∧ v = order be := by
  have h : ∀ i f, [Format.variant "le" (isBytes [0x49, 0x49]), Format.variant "be" (isBytes [0x4D, 0x4D])][i]? = some f →
      Grammar.Reads m f fun _ u v => ∃ be : Bool, i = (if be then 1 else 0) ∧ u = mark be ∧
        v = .variant (if be then "be" else "le") (.tuple ((mark be).map Value.u8)) := by
    intro i f hi
    match i with
    | 0 =>
      cases hi
      refine (reads_variant (exactly_bytes [0x49, 0x49]).reads).congr fun s u v => ?_
      constructor
      · rintro ⟨_, ⟨rfl, rfl⟩, rfl⟩; exact ⟨false, rfl, rfl, rfl⟩
      · rintro ⟨be, hb, rfl, rfl⟩
        cases be
        · exact ⟨_, ⟨rfl, rfl⟩, rfl⟩
        · cases hb
    | 1 =>
      cases hi
      refine (reads_variant (exactly_bytes [0x4D, 0x4D]).reads).congr fun s u v => ?_
      constructor
      · rintro ⟨_, ⟨rfl, rfl⟩, rfl⟩; exact ⟨true, rfl, rfl, rfl⟩
      · rintro ⟨be, hb, rfl, rfl⟩
        cases be
        · cases hb
        · exact ⟨_, ⟨rfl, rfl⟩, rfl⟩
    | i + 2 => simp at hi
  refine (reads_union h).congr fun s u v => ?_
  constructor
  · rintro ⟨i, w, _, ⟨be, rfl, rfl, rfl⟩, rfl⟩; exact ⟨be, rfl, rfl⟩
  · rintro ⟨be, rfl, rfl⟩; exact ⟨_, _, by cases be <;> decide, ⟨be, rfl, rfl, rfl⟩, rfl⟩

theorem order1 (be : Bool) (s : Scope Format) : (Expr.var "byte-order").eval (.single "byte-order" (order be) s) = .ok (order be) := by
  cases be <;> rfl

theorem order2 (be : Bool) (s : Scope Format) (a : Value) :
    (Expr.var "byte-order").eval (.single "magic" a (.single "byte-order" (order be) s)) = .ok (order be) := by
  cases be <;> rfl

theorem order3 (be : Bool) (s : Scope Format) (a b : Value) :
    (Expr.var "byte-order").eval (.single "offset" b (.single "magic" a (.single "byte-order" (order be) s))) = .ok (order be) := by
  cases be <;> rfl

theorem start_var {p : Nat} (hp : p < 2 ^ 64) (s : Scope Format) (a b : Value) (n : Nat) {o : Value} :
    DenotesNat (.var "start_of_header") (.single "offset" b (.single "magic" a
      (.single "byte-order" o (.single "start_of_header" (num .b64 p) s)))) n ↔ n = p := by
  refine denotes_num (w := .b64) ?_ hp n
  rfl

theorem offset_var (be : Bool) (s : Scope Format) (u : List UInt8) (n : Nat) (hu : u.length = 4) :
    DenotesNat (.var "offset") (.single "offset" (which be (long be u)) s) n ↔ n = number be u := by
  refine denotes_num (w := .b32) ?_ ?_ n
  · rfl
  have := number_lt be u
  rw [hu] at this
  exact this

theorem all_header (s : Scope Format) (a b c d e : Value) :
    Denotes (.record [("start_of_header", .var "start_of_header"), ("byte-order", .var "byte-order"), ("magic", .var "magic"),
        ("offset", .var "offset"), ("ifd", .var "ifd")])
      (.single "ifd" e (.single "offset" d (.single "magic" c (.single "byte-order" b (.single "start_of_header" a s)))))
      (.record [("start_of_header", a), ("byte-order", b), ("magic", c), ("offset", d), ("ifd", e)]) := rfl

theorem header_eq (l : Nat) : header l = .hint (.letFormat .pos "start_of_header" (.letFormat (.itemVar (l + 2) [] []) "byte-order"
    (.letFormat (byOrder (word .b16 false) (word .b16 true)) "magic" (.letFormat (byOrder (word .b32 false) (word .b32 true)) "offset"
    (.letFormat (.withRelativeOffset (.var "start_of_header") (.var "offset") (.itemVar (l + 3) [.var "byte-order"] [])) "ifd"
      (.compute (.record [("start_of_header", .var "start_of_header"), ("byte-order", .var "byte-order"), ("magic", .var "magic"),
          ("offset", .var "offset"), ("ifd", .var "ifd")]))))))) := rfl

theorem matches_order {o : Value} {be : Bool} (ho : o.coerceNominal = (order be).coerceNominal) {f g : Format} (i : Nat) (p : Pattern) (h : Format)
    (hi : [(Pattern.variant "le" .wildcard, f), (.variant "be" .wildcard, g)][i]? = some (p, h)) :
    o.matchesPat p = (if i = (if be then 1 else 0) then some [] else none) := by
  unfold Value.matchesPat
  rw [ho]
  match i with
  | 0 => cases hi; cases be <;> rfl
  | 1 => cases hi; cases be <;> rfl
  | i + 2 => simp at hi

/-- the byte order decides -/
theorem by_order {rej : Format → Scope Format → ReadCtxt → Prop} {f g : Format} {be : Bool} {s : Scope Format} {c c' : ReadCtxt} {v : Value}
    {k : Nat} {o : Value} (hs : (Expr.var "byte-order").eval s = .ok o) (ho : o.coerceNominal = (order be).coerceNominal) :
    Parses m rej (byOrder f g) s c v c' k ↔ ∃ w, v = which be w ∧ Parses m rej (if be then g else f) (s.withBindings []) c w c' k := by
  have hm := matches_order ho (f := f) (g := g)
  constructor
  · intro hp
    cases hp with
    | @match_ _ _ i p h _ _ hv bs w _ _ h1 h2 h3 h4 h5 =>
      rw [hs] at h1
      cases h1
      rw [hm i p h h2] at h3
      by_cases hi : i = (if be then 1 else 0)
      · rw [if_pos hi] at h3
        cases h3
        subst hi
        refine ⟨w, rfl, ?_⟩
        cases be <;> (cases h2; exact h5)
      · rw [if_neg hi] at h3
        cases h3
  · rintro ⟨w, rfl, hp⟩
    have hi : [(Pattern.variant "le" .wildcard, f), (.variant "be" .wildcard, g)][(if be then 1 else 0)]? =
        some (.variant (if be then "be" else "le") .wildcard, if be then g else f) := by cases be <;> rfl
    refine .match_ hs hi (by rw [hm _ _ _ hi, if_pos rfl]) (fun j hj q h hq => ?_) hp
    rw [hm j q h hq, if_neg (by omega)]

theorem let_iff {rej : Format → Scope Format → ReadCtxt → Prop} {f g : Format} {x : String} {s : Scope Format} {c c' : ReadCtxt} {v : Value}
    {k : Nat} : Parses m rej (.letFormat f x g) s c v c' k ↔
      ∃ a c1 k1 k2, Parses m rej f s c a c1 k1 ∧ Parses m rej g (.single x a s) c1 v c' k2 ∧ k = k1 + k2 := by
  constructor
  · intro h
    cases h with
    | letFormat h1 h2 => exact ⟨_, _, _, _, h1, h2, rfl⟩
  · rintro ⟨a, c1, k1, k2, h1, h2, rfl⟩
    exact .letFormat h1 h2

/-- numbers in the byte order that was found -/
theorem by_order_reads {rej : Format → Scope Format → ReadCtxt → Prop} {f g : Format} {be : Bool} {s : Scope Format} {c c' : ReadCtxt} {v : Value}
    {k : Nat} {L : List UInt8 → Value → Prop} {o : Value} (hs : (Expr.var "byte-order").eval s = .ok o)
    (ho : o.coerceNominal = (order be).coerceNominal)
    (h : Grammar.Reads m (if be then g else f) fun _ u v => L u v) :
    Parses m rej (byOrder f g) s c v c' k ↔ ∃ u rest w, c.input.drop c.offset = u ++ rest ∧ L u w ∧ v = which be w ∧
      c' = ⟨c.input, c.offset + u.length⟩ ∧ k = 0 := by
  rw [by_order hs ho]
  constructor
  · rintro ⟨w, rfl, hp⟩
    obtain ⟨u, rest, h1, h2, h3, h4⟩ := (h ..).1 hp
    exact ⟨u, rest, w, h1, h2, rfl, h3, h4⟩
  · rintro ⟨u, rest, w, h1, h2, rfl, h3, h4⟩
    exact ⟨w, rfl, (h ..).2 ⟨u, rest, h1, h2, h3, h4⟩⟩

section
variable {l : Nat} (h0 : m.items[l]? = some ⟨[], [], directory false⟩) (h1 : m.items[l + 1]? = some ⟨[], [], directory true⟩)
  (h2 : m.items[l + 2]? = some ⟨[], [], orders⟩)
  (h3 : m.items[l + 3]? = some ⟨["byte-order"], [], byOrder (.itemVar l [] []) (.itemVar (l + 1) [] [])⟩)
include h0 h1 h3

theorem called {rej : Format → Scope Format → ReadCtxt → Prop} {be : Bool} {s : Scope Format} {c c' : ReadCtxt} {v : Value} {k : Nat}
    (hs : (Expr.var "byte-order").eval s = .ok (order be)) :
    Parses m rej (.itemVar (l + 3) [.var "byte-order"] []) s c v c' k ↔ ∃ (d : Directory) (rest : List UInt8), d.Valid be ∧
      c.input.drop c.offset = d.encode ++ rest ∧ v = which be (d.value be) ∧ c' = ⟨c.input, c.offset + d.encode.length⟩ ∧ k = 0 := by
  have hd : Grammar.Reads m (if be then .itemVar (l + 1) [] [] else .itemVar l [] []) fun _ u v =>
      ∃ d : Directory, d.Valid be ∧ u = d.encode ∧ v = d.value be := by
    cases be
    · exact reads_item h0 (reads_directory false)
    · exact reads_item h1 (reads_directory true)
  have hb : (Expr.var "byte-order").eval (.multi ([("byte-order", .value (order be).coerceMapped)] ++ []) .empty : Scope Format) =
      .ok (order be).coerceMapped := by
    cases be <;> rfl
  have hn : (order be).coerceMapped.coerceNominal = (order be).coerceNominal := by cases be <;> rfl
  have hv : Denotes (.var "byte-order") s (order be).coerceMapped := by
    unfold Denotes Expr.evalValue
    rw [hs]
    rfl
  constructor
  · intro hp
    cases hp with
    | itemVar a1 a2 a3 a4 =>
      rw [h3] at a1
      cases a1
      cases a2 with
      | cons b1 b2 =>
        cases b2
        cases a3
        obtain ⟨_, rest, w, e1, ⟨d, e2, rfl, rfl⟩, e3, e4, e5⟩ := (by_order_reads hb hn hd).1 (by cases hv.symm.trans b1; exact a4)
        exact ⟨d, rest, e2, e1, e3, e4, e5⟩
  · rintro ⟨d, rest, e2, e1, e3, e4, e5⟩
    exact .itemVar h3 (.cons hv .nil) .nil ((by_order_reads hb hn hd).2 ⟨_, rest, _, e1, ⟨d, e2, rfl, rfl⟩, e3, e4, e5⟩)

include h2

theorem header_parses {rej : Format → Scope Format → ReadCtxt → Prop} {s : Scope Format} {c c' : ReadCtxt} {v : Value} {k : Nat}
    (hc : c.offset < 2 ^ 64) :
    Parses m rej (header l) s c v c' k ↔ ∃ (h : Header) (d : Directory) (rest rest' : List UInt8), h.Valid ∧ d.Valid h.be ∧
      c.input.drop c.offset = h.encode ++ rest ∧ c.input.drop (c.offset + number h.be h.offset) = d.encode ++ rest' ∧
      v = h.value c.offset d ∧ c' = ⟨c.input, c.offset + h.encode.length⟩ ∧ k = 0 := by
  have hw16 : ∀ be : Bool, Grammar.Reads m (if be then word .b16 true else word .b16 false) fun _ u v => u.length = 2 ∧ v = short be u := by
    intro be; cases be
    · exact word16 false
    · exact word16 true
  have hw32 : ∀ be : Bool, Grammar.Reads m (if be then word .b32 true else word .b32 false) fun _ u v => u.length = 4 ∧ v = long be u := by
    intro be; cases be
    · exact word32 false
    · exact word32 true
  have ho : Grammar.Reads m (.itemVar (l + 2) [] []) fun _ u v => ∃ be, u = mark be ∧ v = order be := reads_item h2 reads_orders
  rw [header_eq]
  constructor
  · intro hp
    cases hp with
    | hint hp =>
    obtain ⟨_, _, _, n1, p1, hp1, hk1⟩ := let_iff.1 hp
    cases p1
    obtain ⟨_, _, _, n2, p2, hp2, hk2⟩ := let_iff.1 hp1
    obtain ⟨_, r2, e2, ⟨be, rfl, rfl⟩, rfl, rfl⟩ := (ho ..).1 p2
    obtain ⟨_, _, _, n3, p3, hp3, hk3⟩ := let_iff.1 hp2
    obtain ⟨mg, r3, _, e3, ⟨l3, rfl⟩, rfl, rfl, rfl⟩ := (by_order_reads (order1 be _) rfl (hw16 be)).1 p3
    obtain ⟨_, _, _, n4, p4, hp4, hk4⟩ := let_iff.1 hp3
    obtain ⟨of, r4, _, e4, ⟨l4, rfl⟩, rfl, rfl, rfl⟩ := (by_order_reads (order2 be _ _) rfl (hw32 be)).1 p4
    obtain ⟨_, _, _, n5, p5, hp5, hk5⟩ := let_iff.1 hp4
    cases p5 with
    | withRelativeOffset q1 q2 q3 q4 =>
      cases (start_var hc _ _ _ _).1 q1
      cases (offset_var be _ _ _ l4).1 q2
      obtain ⟨d, r5, hd, e5, rfl, _, rfl⟩ := (called h0 h1 h3 (order3 be _ _ _)).1 q4
      cases hp5 with
      | compute q5 =>
        cases (all_header ..).symm.trans q5
        dsimp only at e3 e4 e5
        rw [drop_step e2] at e3
        rw [e3] at e2
        rw [Nat.add_assoc, ← List.length_append] at e4
        rw [drop_step (u := mark be ++ mg) (rest := r3) (by rw [e2, List.append_assoc])] at e4
        refine ⟨⟨be, mg, of⟩, d, r4, r5, ⟨l3, l4⟩, hd, by rw [e2, e4]; simp [Header.encode], e5, rfl, ?_, ?_⟩
        · simp [Header.encode, Nat.add_assoc]
        · omega
  · rintro ⟨⟨be, mg, of⟩, d, rest, rest', ⟨l3, l4⟩, hd, e1, e2, rfl, rfl, rfl⟩
    dsimp only [Header.encode] at e1 e2 l3 l4 hd ⊢
    rw [List.append_assoc, List.append_assoc] at e1
    have hle : c.offset + number be of ≤ c.input.length := by
      have := congrArg List.length e2
      simp only [List.length_drop, List.length_append, Directory.encode, hd.1] at this
      omega
    refine .hint (let_iff.2 ⟨_, c, 0, 0, .pos, let_iff.2 ⟨order be, ⟨c.input, c.offset + (mark be).length⟩, 0, 0,
      (ho ..).2 ⟨_, _, e1, ⟨be, rfl, rfl⟩, rfl, rfl⟩, let_iff.2 ⟨which be (short be mg), ⟨c.input, c.offset + (mark be).length + mg.length⟩, 0, 0,
      (by_order_reads (order1 be _) rfl (hw16 be)).2 ⟨mg, of ++ rest, _, drop_step e1, ⟨l3, rfl⟩, rfl, rfl, rfl⟩,
      let_iff.2 ⟨which be (long be of), ⟨c.input, c.offset + (mark be).length + mg.length + of.length⟩, 0, 0,
      (by_order_reads (order2 be _ _) rfl (hw32 be)).2 ⟨of, rest, _, ?_, ⟨l4, rfl⟩, rfl, rfl, rfl⟩,
      let_iff.2 ⟨which be (d.value be), _, 0, 0, .withRelativeOffset ((start_var hc _ _ _ _).2 rfl) ((offset_var be _ _ _ l4).2 rfl) hle
        ((called h0 h1 h3 (order3 be _ _ _)).2 ⟨d, rest', hd, e2, rfl, rfl, rfl⟩), ?_, rfl⟩, rfl⟩, rfl⟩, rfl⟩, rfl⟩)
    · dsimp only
      exact drop_step (c := ⟨c.input, c.offset + (mark be).length⟩) (drop_step e1)
    · rw [show c.offset + (mark be ++ mg ++ of).length = c.offset + (mark be).length + mg.length + of.length by
        simp [Nat.add_assoc]]
      exact .compute (all_header ..)

omit h0 h1 h2 h3 in
theorem safe_by_order {codes : Format → Prop} {f g : Format} {be : Bool} {s : Scope Format} {c : ReadCtxt} {o : Value}
    (hs : (Expr.var "byte-order").eval s = .ok o) (ho : o.coerceNominal = (order be).coerceNominal) (hf : Total m f) (hg : Total m g) :
    Safe m codes (byOrder f g) s c := by
  have hm := matches_order ho (f := f) (g := g)
  have hi : [(Pattern.variant "le" .wildcard, f), (.variant "be" .wildcard, g)][(if be then 1 else 0)]? =
      some (.variant (if be then "be" else "le") .wildcard, if be then g else f) := by cases be <;> rfl
  refine .match_ hs hi (by rw [hm _ _ _ hi, if_pos rfl]) (fun j hj q h hq => ?_) ?_
  · rw [hm j q h hq, if_neg (by omega)]
  · cases be
    · exact hf _ _ _
    · exact hg _ _ _

omit h0 h1 h2 h3 in
theorem total_entry (be : Bool) : Total m (entry be) := by
  rw [entry_eq]
  exact total_hint fun codes s c => .letFormat ((fixed_word .b16 be).total _ _ _) fun v1 c1 k1 _ =>
    .letFormat ((fixed_word .b16 be).total _ _ _) fun v2 c2 k2 _ => .letFormat ((fixed_word .b32 be).total _ _ _) fun v3 c3 k3 _ =>
      .letFormat ((fixed_word .b32 be).total _ _ _) fun v4 c4 k4 _ => .compute (all_entry ..)

omit h0 h1 h2 h3 in
theorem total_directory (be : Bool) : Total m (directory be) := by
  rw [directory_eq]
  refine total_hint fun codes s c => .letFormat ((fixed_word .b16 be).total _ _ _) fun v1 c1 k1 hp =>
    .letFormat ?_ fun v2 c2 k2 _ => .letFormat ((fixed_word .b32 be).total _ _ _) fun v3 c3 k3 _ =>
      .letFormat (total_repeat fixed_u8.total _ _ _) fun v4 c4 k4 _ => .compute (all_directory ..)
  obtain ⟨u, _, _, ⟨hu, rfl⟩, _⟩ := (word16 be ..).1 hp
  exact .repeatCount ((count_var be _ _ _ hu).2 rfl) fun vs c' k _ _ => total_entry be _ _ _

omit h0 h1 h2 h3 in
theorem total_orders : Total m orders := by
  refine total_union fun f hf => ?_
  simp only [List.map_cons, List.map_nil, List.mem_cons, List.not_mem_nil, or_false] at hf
  rcases hf with rfl | rfl
  · exact total_variant (exactly_bytes [0x49, 0x49]).total
  · exact total_variant (exactly_bytes [0x4D, 0x4D]).total

theorem safe_header : Riff.SafeIn m (header l) := by
  intro codes s c hc hz
  have hcu : usizeCard = 2 ^ 64 := rfl
  have hc64 : c.offset < 2 ^ 64 := by omega
  have ho : Grammar.Reads m (.itemVar (l + 2) [] []) fun _ u v => ∃ be, u = mark be ∧ v = order be := reads_item h2 reads_orders
  rw [header_eq]
  refine .hint (.letFormat .pos fun v1 c1 k1 p1 => ?_)
  cases p1
  refine .letFormat (total_item h2 total_orders _ _ _) fun v2 c2 k2 p2 => ?_
  obtain ⟨_, r2, e2, ⟨be, rfl, rfl⟩, rfl, rfl⟩ := (ho ..).1 p2
  refine .letFormat (safe_by_order (order1 be _) rfl (fixed_word .b16 false).total (fixed_word .b16 true).total) fun v3 c3 k3 p3 => ?_
  obtain ⟨mg, r3, _, e3, ⟨l3, rfl⟩, rfl, rfl, rfl⟩ := (by_order_reads (L := fun u v => u.length = 2 ∧ v = short be u) (order1 be _) rfl (by
    cases be
    · exact word16 false
    · exact word16 true)).1 p3
  refine .letFormat (safe_by_order (order2 be _ _) rfl (fixed_word .b32 false).total (fixed_word .b32 true).total) fun v4 c4 k4 p4 => ?_
  obtain ⟨of, r4, _, e4, ⟨l4, rfl⟩, rfl, rfl, rfl⟩ := (by_order_reads (L := fun u v => u.length = 4 ∧ v = long be u) (order2 be _ _) rfl (by
    cases be
    · exact word32 false
    · exact word32 true)).1 p4
  have hlt := number_lt be of
  rw [l4] at hlt
  refine .letFormat (.withRelativeOffset ((start_var hc64 _ _ _ _).2 rfl) ((offset_var be _ _ _ l4).2 rfl) (by omega) fun _ => ?_)
    fun v5 c5 k5 _ => .compute (all_header ..)
  have hv : ∀ s : Scope Format, (Expr.var "byte-order").eval s = .ok (order be) → Denotes (.var "byte-order") s (order be).coerceMapped := by
    intro s hs
    unfold Denotes Expr.evalValue
    rw [hs]
    rfl
  refine .itemVar h3 (fun p hp => ?_) (by simp) fun es vs he hw => ?_
  · simp only [List.zip_cons_cons, List.zip_nil_left, List.mem_cons, List.not_mem_nil, or_false] at hp
    subst hp
    exact ⟨_, hv _ (order3 be _ _ _)⟩
  · cases he with
    | cons b1 b2 =>
      cases b2
      cases hw
      cases (hv _ (order3 be _ _ _)).symm.trans b1
      refine safe_by_order (be := be) (o := (order be).coerceMapped) (by cases be <;> rfl) (by cases be <;> rfl)
        (total_item h0 (total_directory false)) (total_item h1 (total_directory true))

end

end Tiff
end Doodle
