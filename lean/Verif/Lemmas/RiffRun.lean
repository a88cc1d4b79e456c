import Verif.Lemmas.Riff
import Verif.Lemmas.Sound
import Verif.Lemmas.Predictive
import Verif.Props.Munch

/-! RIFF files: decoders read the slices to their ends. -/

namespace Doodle
namespace Riff

open Grammar Compiler Helper Sound Predictive

/-- any byte may come first in what the format takes, and it takes some -/
def Takes (m : Module) (f : Format) : Prop := ∀ n x s b, Format.step m n f x = .ok s → Has s.branches b

section
variable {m : Module} {f g : Format}

theorem takes_u8 : Takes m u8 := by
  intro n x s b h
  match n with
  | 0 => simp [Format.step] at h
  | 1 => simp [u8, Format.step] at h
  | n + 2 =>
    simp only [u8, Format.step] at h
    cases h
    exact ⟨_, .head _, full_contains b⟩

theorem takes_hint (h : Takes m f) : Takes m (.hint f) := by
  intro n x s b hs
  match n with
  | 0 => simp [Format.step] at hs
  | n + 1 => exact h n x s b (by simpa only [Format.step] using hs)

theorem takes_letFormat {x : String} (h : Takes m f) : Takes m (.letFormat f x g) := by
  intro n y s b hs
  match n with
  | 0 => simp [Format.step] at hs
  | n + 1 => exact h n _ s b (by simpa only [Format.step] using hs)

theorem takes_tuple {fs : List Format} (h : Takes m f) : Takes m (.tuple (f :: fs)) := by
  intro n y s b hs
  match n with
  | 0 => simp [Format.step] at hs
  | n + 1 => exact h n _ s b (by simpa only [Format.step] using hs)

theorem takes_item {l : Nat} (hi : m.items[l]? = some ⟨[], [], f⟩) (h : Takes m f) : Takes m (.itemVar l [] []) := by
  intro n y s b hs
  match n with
  | 0 => simp [Format.step] at hs
  | n + 1 =>
    simp only [Format.step] at hs
    obtain ⟨it, h1, hs⟩ := Outcome.bind_eq_ok.1 hs
    have h1 := Outcome.ofPanicky_eq_ok.1 h1
    rw [Module.get, hi] at h1
    cases h1
    exact h n _ s b hs

end

section
variable {m : Module} {o : BuildOpts} {M : List ((Nat × Next) × Nat)} {env : Env} {f g : Format}
  {L L' : Scope Format → List UInt8 → Value → Prop}

/-- the scopes of a decoder and of its format -/
abbrev Scopes (m : Module) (o : BuildOpts) (M : List ((Nat × Next) × Nat)) : Scope Format → Scope Decoder → Prop :=
  ScopeRel fun f d => ∃ next, Compiles (.both m o M) f next d

/-- What decoders of the format read when they succeed; they log nothing. -/
def Runs (m : Module) (o : BuildOpts) (M : List ((Nat × Next) × Nat)) (env : Env) (f : Format)
    (L : Scope Format → List UInt8 → Value → Prop) : Prop :=
  ∀ next d n s s' c w, Compiles (.of m o M) f next d → Scopes m o M s s' → Decoder.parse env n d s' c = .ok w →
    ∃ u rest, c.input.drop c.offset = u ++ rest ∧ L s u w.value.1 ∧ w.value.2 = ⟨c.input, c.offset + u.length⟩ ∧ w.errs = []

/-- Decoders of the format after which nothing comes read to the end when they succeed. -/
def Full (m : Module) (o : BuildOpts) (M : List ((Nat × Next) × Nat)) (env : Env) (f : Format) : Prop :=
  ∀ next d n s' c w, (∀ b, ¬ Begins m b next) → Compiles (.of m o M) f next d → Decoder.parse env n d s' c = .ok w →
    w.value.2.input.length ≤ w.value.2.offset

theorem runs_of_reads (hl : Linked (.both m o M) m env) (h : Grammar.Reads m f L) : Runs m o M env f L := by
  intro next d n s s' c w hc hs hp
  obtain ⟨u, rest, h1, h2, h3, h4⟩ := (h ..).1 (parse_sound hl n f next d s s' c w (hc.mono (CRel.of_le_both m o M)) hs hp)
  exact ⟨u, rest, h1, h2, h3, List.length_eq_zero_iff.1 h4⟩

theorem runs_hint (h : Runs m o M env f L) : Runs m o M env (.hint f) L := by
  intro next d n s s' c w hc hs hp
  cases hc with
  | hint hc => exact h _ _ _ _ _ _ _ hc hs hp

theorem runs_letFormat {x : String} (h : Runs m o M env f L) (h' : Runs m o M env g L') :
    Runs m o M env (.letFormat f x g) fun s w v => ∃ u u' z, w = u ++ u' ∧ L s u z ∧ L' (.single x z s) u' v := by
  intro next d n s s' c w hc hs hp
  cases n with
  | zero => cases hp
  | succ n =>
    cases hc with
    | letFormat hc1 hc2 =>
      obtain ⟨w1, h1, hp⟩ := Outcome.bind_eq_ok.1 hp
      obtain ⟨w2, h2, hp⟩ := Outcome.bind_eq_ok.1 hp
      cases hp
      obtain ⟨u, rest, e1, e2, e3, e4⟩ := h _ _ _ _ _ _ _ hc1 hs h1
      obtain ⟨u', rest', f1, f2, f3, f4⟩ := h' _ _ _ _ _ _ _ hc2 (hs.single) h2
      rw [e3] at f1 f3
      dsimp only at f1 f3
      rw [drop_step e1] at f1
      refine ⟨u ++ u', rest', by rw [e1, f1, List.append_assoc], ⟨u, u', _, rfl, e2, f2⟩, ?_, by simp [e4, f4]⟩
      dsimp only
      rw [f3, List.length_append, Nat.add_assoc]

theorem runs_slice {e : Expr} {L0 : Scope Format → List UInt8 → Value → Prop} (hl : Linked (.both m o M) m env) (h0 : Grammar.Reads m f L0)
    (h : Runs m o M env f L) (hf : Full m o M env f) : Runs m o M env (.slice e f) fun s u v => DenotesNat e s u.length ∧ L s u v := by
  intro next d n s s' c w hc hs hp
  have hp0 := parse_sound hl n _ next d s s' c w (hc.mono (CRel.of_le_both m o M)) hs hp
  cases n with
  | zero => cases hp
  | succ n =>
    cases hc with
    | slice hc =>
      obtain ⟨k, h1, hp⟩ := Outcome.bind_eq_ok.1 hp
      obtain ⟨sp, h2, hp⟩ := Outcome.bind_eq_ok.1 hp
      have h2 := Outcome.ofPanicky_eq_ok.1 h2
      unfold ReadCtxt.splitAt addUsize at h2
      split at h2
      · cases h2
      · next e he =>
        split at he
        case isFalse => cases he
        cases he
        split at h2
        case isFalse => cases h2; cases hp
        next hle =>
        cases h2
        obtain ⟨w1, h3, hp⟩ := Outcome.bind_eq_ok.1 hp
        cases hp
        obtain ⟨u, rest, e1, e2, e3, e4⟩ := h _ _ _ _ _ _ _ hc hs h3
        have hend := hf .empty _ _ _ _ _ (fun b hb => hb) hc h3
        obtain ⟨u0, r0, i1, ⟨_, _, _, i2, _⟩, i3, _⟩ := (readsAt_slice h0 _ _ _ _ _ _ (by omega)).1 hp0
        have i3 : c.offset + k = c.offset + u0.length := congrArg ReadCtxt.offset i3
        rw [e3] at hend
        dsimp only at hend e1
        rw [List.length_take] at hend
        rw [List.drop_take, Nat.add_sub_cancel_left] at e1
        have hlen := congrArg List.length e1
        rw [List.length_take, List.length_drop, List.length_append] at hlen
        have hk : u.length = k := by omega
        have hr : rest = [] := List.length_eq_zero_iff.1 (by omega)
        subst hr
        rw [List.append_nil] at e1
        refine ⟨u, (c.input.drop c.offset).drop k, by rw [← e1, List.take_append_drop], ⟨?_, e2⟩, ?_, e4⟩
        · rw [hk, show k = u0.length by omega]; exact i2
        · rw [hk]; rfl

theorem loop_pieces {t : MatchTree} {d : Decoder} {next : Next} (hc : Compiles (.of m o M) f next d) (h : Runs m o M env f L) {s : Scope Format}
    {s' : Scope Decoder} (hs : Scopes m o M s s') {k : Nat} : ∀ (n : Nat) (acc acc' : Decoder.Acc),
    Decoder.whileLoop t (fun c => Decoder.parse env k d s' c) n acc = .ok acc' →
    ∃ u rest vs, acc.value.2.input.drop acc.value.2.offset = u ++ rest ∧ Pieces (L s) u vs ∧ acc'.value.1 = acc.value.1 ++ vs ∧
      acc'.value.2 = ⟨acc.value.2.input, acc.value.2.offset + u.length⟩ ∧ acc'.errs = acc.errs
  | 0, _, _, hw => by cases hw
  | n + 1, acc, acc', hw => by
    simp only [Decoder.whileLoop] at hw
    split at hw
    · cases hw
    · obtain ⟨w, h1, hw⟩ := Outcome.bind_eq_ok.1 hw
      obtain ⟨u, rest, e1, e2, e3, e4⟩ := h _ _ _ _ _ _ _ hc hs h1
      obtain ⟨u', rest', vs, f1, f2, f3, f4, f5⟩ := loop_pieces hc h hs n _ _ hw
      simp only [Decoder.push] at f1 f3 f4 f5
      rw [e3] at f1 f4
      dsimp only at f1 f4
      rw [drop_step e1] at f1
      refine ⟨u ++ u', rest', w.value.1 :: vs, by rw [e1, f1, List.append_assoc], .cons e2 f2, by rw [f3, List.append_assoc]; rfl, ?_, by rw [f5, e4]; rfl⟩
      rw [f4, List.length_append, Nat.add_assoc]
    · cases hw
      exact ⟨[], _, [], rfl, .nil, by rw [List.append_nil], rfl, rfl⟩

theorem runs_repeat (h : Runs m o M env f L) : Runs m o M env (.repeat_ f) fun s u v => ∃ vs, Pieces (L s) u vs ∧ v = .seq (.strict vs) := by
  intro next d n s s' c w hc hs hp
  cases n with
  | zero => cases hp
  | succ n =>
    cases hc with
    | repeat_ _ hc _ =>
      obtain ⟨acc, h1, hp⟩ := Outcome.bind_eq_ok.1 hp
      cases hp
      obtain ⟨u, rest, vs, e1, e2, e3, e4, e5⟩ := loop_pieces hc h hs n _ _ h1
      exact ⟨u, rest, e1, ⟨vs, e2, by show Value.seq (.strict acc.value.1) = _; rw [e3]; rfl⟩, e4, e5⟩

theorem full_repeat (ho : o.ord.Valid) (h : Takes m f) : Full m o M env (.repeat_ f) := by
  intro next d n s' c w hn hc hp
  cases n with
  | zero => cases hp
  | succ n =>
    cases hc with
    | repeat_ _ _ ht =>
      obtain ⟨acc, h1, hp⟩ := Outcome.bind_eq_ok.1 hp
      cases hp
      obtain ⟨i, hi⟩ := Munch.while_stops h1
      refine Nat.le_of_not_lt fun hlt => ?_
      have hb : At acc.value.2 (acc.value.2.input[acc.value.2.offset]'hlt) := List.getElem?_eq_getElem hlt
      have := select1 (i := 0) (f := .tuple [f, .repeat_ f]) ho ht (c := acc.value.2) rfl (by
          intro n s hs
          cases n with
          | zero => simp [Next.step] at hs
          | succ n => exact .inr ⟨_, hb, takes_tuple h n _ s _ (by simpa only [Next.step] using hs)⟩) (by
          intro b _ j g hj hj0
          match j, hj0 with
          | 1, _ =>
            cases hj
            rintro (h | ⟨_, h⟩)
            · exact starts_nil h
            · exact hn b h
          | j + 2, _ => simp at hj)
      rw [this] at hi
      cases hi

theorem full_hint (h : Full m o M env f) : Full m o M env (.hint f) := by
  intro next d n s' c w hn hc hp
  cases hc with
  | hint hc => exact h _ _ _ _ _ _ hn hc hp

theorem full_last {x : String} (h : Full m o M env g) : Full m o M env (.letFormat f x g) := by
  intro next d n s' c w hn hc hp
  cases n with
  | zero => cases hp
  | succ n =>
    cases hc with
    | letFormat hc1 hc2 =>
      obtain ⟨w1, h1, hp⟩ := Outcome.bind_eq_ok.1 hp
      obtain ⟨w2, h2, hp⟩ := Outcome.bind_eq_ok.1 hp
      cases hp
      exact h _ _ _ _ _ w2 hn hc2 h2

theorem full_compute {x : String} {e : Expr} (h : Full m o M env f) : Full m o M env (.letFormat f x (.compute e)) := by
  intro next d n s' c w hn hc hp
  cases n with
  | zero => cases hp
  | succ n =>
    cases hc with
    | letFormat hc1 hc2 =>
      obtain ⟨w1, h1, hp⟩ := Outcome.bind_eq_ok.1 hp
      obtain ⟨w2, h2, hp⟩ := Outcome.bind_eq_ok.1 hp
      cases hp
      cases hc2
      cases n with
      | zero => cases h2
      | succ n =>
        obtain ⟨v, _, h2⟩ := Outcome.bind_eq_ok.1 h2
        cases h2
        refine h _ _ _ _ _ w1 (fun b => ?_) hc1 h1
        rintro (h | ⟨_, h⟩)
        · cases h
        · exact hn b h

end

section
variable {m : Module} {o : BuildOpts} {M : List ((Nat × Next) × Nat)} {env : Env} {f : Format} {L : Scope Format → List UInt8 → Value → Prop}
  (hM : ∀ level next k, ((level, next), k) ∈ M → ∃ it d, m.items[level]? = some it ∧ env.program[k]? = some d ∧
    Compiles (.of m o M) it.format next d)
include hM

theorem call_inv {l : Nat} (hi : m.items[l]? = some ⟨[], [], f⟩) {next : Next} {d : Decoder} {n : Nat} {s' : Scope Decoder} {c : ReadCtxt} {w : Parsed}
    (hc : Compiles (.of m o M) (.itemVar l [] []) next d) (hp : Decoder.parse env n d s' c = .ok w) :
    ∃ next' d' n', (next' = next ∨ next' = .empty) ∧ Compiles (.of m o M) f next' d' ∧
      Decoder.parse env n' d' (.multi [] .empty) c = .ok w := by
  cases n with
  | zero => cases hp
  | succ n =>
    cases hc with
    | @itemVar _ _ _ it' _ dep k h1 h2 h3 =>
      obtain ⟨it'', d, h4, h5, h6⟩ := hM _ _ _ h3
      rw [hi] at h4
      rw [show m.items[l]? = some it' from h1] at hi
      cases hi
      cases h4
      obtain ⟨es, he, hp⟩ := Outcome.bind_eq_ok.1 hp
      obtain ⟨vs, hv, hp⟩ := Outcome.bind_eq_ok.1 hp
      obtain ⟨d', h7, hp⟩ := Outcome.bind_eq_ok.1 hp
      rw [h5] at h7
      cases h7
      cases he
      cases hv
      exact ⟨_, _, n, by split <;> simp, h6, hp⟩

theorem runs_item {l : Nat} (hi : m.items[l]? = some ⟨[], [], f⟩) (h : Runs m o M env f L) :
    Runs m o M env (.itemVar l [] []) fun _ u v => L (.multi [] .empty) u v := by
  intro next d n s s' c w hc hs hp
  obtain ⟨next', d', n', _, h1, h2⟩ := call_inv hM hi hc hp
  exact h _ _ _ _ _ _ _ h1 (.multi .empty) h2

theorem full_item {l : Nat} (hi : m.items[l]? = some ⟨[], [], f⟩) (h : Full m o M env f) : Full m o M env (.itemVar l [] []) := by
  intro next d n s' c w hn hc hp
  obtain ⟨next', d', n', hx, h1, h2⟩ := call_inv hM hi hc hp
  refine h _ _ _ _ _ _ (fun b hb => ?_) h1 h2
  rcases hx with rfl | rfl
  · exact hn b hb
  · exact hb

end

section
variable {m : Module} {o : BuildOpts} {M : List ((Nat × Next) × Nat)} {env : Env}

theorem Runs.mono {f : Format} {L L' : Scope Format → List UInt8 → Value → Prop} (h : Runs m o M env f L) (hi : ∀ s u v, L s u v → L' s u v) :
    Runs m o M env f L' := by
  intro next d n s s' c w hc hs hp
  obtain ⟨u, rest, h1, h2, h3⟩ := h _ _ _ _ _ _ _ hc hs hp
  exact ⟨u, rest, h1, hi _ _ _ h2, h3⟩

theorem runs_chunk {tag data : Format} {T D : List UInt8 → Value → Prop} {D0 : List UInt8 → Value → Prop} (hl : Linked (.both m o M) m env)
    (hT : Runs m o M env tag fun _ u v => T u v) (hD0 : Grammar.Reads m data fun _ u v => D0 u v)
    (hD : Runs m o M env data fun _ u v => D u v) (hF : Full m o M env data) :
    Runs m o M env (chunk tag data) fun _ w v => ∃ t size u tv dv, T t tv ∧ size.length = 4 ∧ D u dv ∧
      littleEnd size = u.length ∧ w = t ++ size ++ u ++ padding (littleEnd size) ∧
      v = .record [("tag", tv), ("length", lengthOf size), ("data", dv), ("pad", paddingValue (littleEnd size))] := by
  have hchain : chunk tag data = .hint (.letFormat tag "tag" (.letFormat (word .b32 false) "length"
      (.letFormat (.slice (.var "length") data) "data" (.letFormat (.maybe (isOdd (.var "length")) (isByte 0)) "pad"
        (.compute (.record [("tag", .var "tag"), ("length", .var "length"), ("data", .var "data"), ("pad", .var "pad")])))))) := rfl
  rw [hchain]
  have hall : ∀ (s : Scope Format) (a b c d : Value),
      Denotes (.record [("tag", .var "tag"), ("length", .var "length"), ("data", .var "data"), ("pad", .var "pad")])
        (.single "pad" d (.single "data" c (.single "length" b (.single "tag" a s))))
        (.record [("tag", a), ("length", b), ("data", c), ("pad", d)]) := fun _ _ _ _ _ => rfl
  refine (runs_hint (runs_letFormat hT (runs_letFormat (runs_of_reads hl (fixed_word .b32 false).reads)
    (runs_letFormat (runs_slice hl hD0 hD hF) (runs_of_reads hl (reads_letFormat (reads_maybe (exactly_byte 0).reads) reads_compute)))))).mono
      fun s w v => ?_
  rintro ⟨t, _, tv, rfl, ht, size, _, _, rfl, ⟨hs, rfl⟩, u, _, dv, rfl, ⟨h1, hd⟩, pad, _, pv, rfl, hpad, rfl, hv⟩
  replace hs : size.length = 4 := hs
  have hn := (length_var _ _ _ _ hs).1 h1
  have hp : pad = padding (littleEnd size) ∧ pv = paddingValue (littleEnd size) := by
    rcases hpad with ⟨hb, z, ⟨rfl, rfl⟩, rfl⟩ | ⟨hb, rfl, rfl⟩
    · have := of_decide_eq_true ((odd_var _ _ _ _ _ hs).1 hb).symm
      rw [padding, paddingValue, if_pos this, if_pos this]; exact ⟨rfl, rfl⟩
    · have := of_decide_eq_false ((odd_var _ _ _ _ _ hs).1 hb).symm
      rw [padding, paddingValue, if_neg this, if_neg this]; exact ⟨rfl, rfl⟩
  obtain ⟨rfl, rfl⟩ := hp
  cases (hall _ _ _ _ _).symm.trans hv
  exact ⟨t, size, u, tv, dv, ht, hs, hd, hn.symm, by simp only [List.append_assoc, List.append_nil], rfl⟩

variable (hl : Linked (.both m o M) m env) (ho : o.ord.Valid)
  (hM : ∀ level next k, ((level, next), k) ∈ M → ∃ it d, m.items[level]? = some it ∧ env.program[k]? = some d ∧
    Compiles (.of m o M) it.format next d)
  {l : Nat} (h0 : m.items[l]? = some ⟨[], [], anyTag⟩) (h1 : m.items[l + 1]? = some ⟨[], [], anyChunk l⟩)
  (h2 : m.items[l + 2]? = some ⟨[], [], subchunks l⟩)

theorem takes_tag : Takes m anyTag := takes_tuple takes_u8

include h0 in
theorem takes_chunk : Takes m (anyChunk l) := takes_hint (takes_letFormat (takes_item h0 takes_tag))

include hl ho hM h0

theorem runs_anyChunk : Runs m o M env (anyChunk l) fun _ u v => ∃ c : Chunk, (c.Valid ∧ c.left = []) ∧ u = c.encode ∧ v = c.value := by
  refine (runs_chunk (T := fun u v => u.length = 4 ∧ v = tupleOf u) (D := fun u v => v = seqOf u) (D0 := fun u v => v = seqOf u) hl
    (runs_item hM h0 (runs_of_reads hl reads_tag)) reads_opaque (runs_of_reads hl reads_opaque) (full_repeat ho takes_u8)).mono fun s u v => ?_
  rintro ⟨t, size, d, _, _, ⟨ht, rfl⟩, hs, rfl, hn, rfl, rfl⟩
  exact ⟨⟨t, size, d, []⟩, ⟨⟨ht, hs, hn⟩, rfl⟩, by simp [Chunk.encode], rfl⟩

include h1

theorem runs_subchunks : Runs m o M env (subchunks l) fun _ u v => ∃ (form : List UInt8) (cs : List Chunk), form.length = 4 ∧
    (∀ c ∈ cs, c.Valid ∧ c.left = []) ∧ u = form ++ cs.flatMap Chunk.encode ∧
    v = .record [("tag", tupleOf form), ("chunks", .seq (.strict (cs.map Chunk.value)))] := by
  have hchain : subchunks l = .hint (.letFormat (.itemVar l [] []) "tag" (.letFormat (.repeat_ (.itemVar (l + 1) [] [])) "chunks"
    (.compute (.record [("tag", .var "tag"), ("chunks", .var "chunks")])))) := rfl
  rw [hchain]
  have hall : ∀ (s : Scope Format) (a b : Value), Denotes (.record [("tag", .var "tag"), ("chunks", .var "chunks")])
    (.single "chunks" b (.single "tag" a s)) (.record [("tag", a), ("chunks", b)]) := fun _ _ _ => rfl
  refine (runs_hint (runs_letFormat (runs_item hM h0 (runs_of_reads hl reads_tag))
    (runs_letFormat (runs_repeat (runs_item hM h1 (runs_anyChunk hl ho hM h0))) (runs_of_reads hl reads_compute)))).mono fun s u v => ?_
  rintro ⟨form, _, _, rfl, ⟨hf, rfl⟩, w, _, _, rfl, ⟨vs, hp, rfl⟩, rfl, hv⟩
  obtain ⟨cs, hcs, rfl, rfl⟩ := pieces_made.1 hp
  cases (hall _ _ _).symm.trans hv
  exact ⟨form, cs, hf, hcs, by rw [List.append_nil], rfl⟩

include h2

theorem runs_file : Runs m o M env (chunk (isBytes [0x52, 0x49, 0x46, 0x46]) (.itemVar (l + 2) [] [])) fun _ u v =>
    ∃ f : File, f.Valid ∧ f.left = [] ∧ (∀ c ∈ f.chunks, c.left = []) ∧ u = f.encode ∧ v = f.value := by
  have hF : Full m o M env (subchunks l) :=
    full_hint (full_last (full_compute (full_repeat ho (takes_item h1 (takes_chunk h0)))))
  refine (runs_chunk (T := fun u v => u = magic ∧ v = tupleOf magic) hl (runs_of_reads hl (exactly_bytes magic).reads)
    (reads_item h2 (reads_subchunks h0 h1)) (runs_item hM h2 (runs_subchunks hl ho hM h0 h1)) (full_item hM h2 hF)).mono fun s u v => ?_
  rintro ⟨_, size, _, _, _, ⟨rfl, rfl⟩, hs, ⟨form, cs, hf, hcs, rfl, rfl⟩, hn, rfl, rfl⟩
  exact ⟨⟨size, form, cs, []⟩, ⟨hs, hf, fun c h => (hcs c h).1, hn⟩, rfl, fun c h => (hcs c h).2, by simp [File.encode, File.body], rfl⟩

end

end Riff
end Doodle
