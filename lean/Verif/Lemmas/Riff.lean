import Verif.Model.Riff
import Verif.Spec.Riff
import Verif.Lemmas.Formats

/-! RIFF files: slices, optional formats, and the derivations of the format. -/

namespace Doodle
namespace Grammar

variable {m : Module} {f g : Format} {L L' : Scope Format → List UInt8 → Value → Prop}

/-- The same as `Reads`, at places within the input. -/
def ReadsAt (m : Module) (f : Format) (L : Scope Format → List UInt8 → Value → Prop) : Prop :=
  ∀ rej s c v c' n, c.offset ≤ c.input.length → (Parses m rej f s c v c' n ↔ ∃ u rest, c.input.drop c.offset = u ++ rest ∧ L s u v ∧
    c' = ⟨c.input, c.offset + u.length⟩ ∧ n = 0)

theorem readsAt_slice {e : Expr} (h : Reads m f L) :
    ReadsAt m (.slice e f) fun s w v => ∃ u left, w = u ++ left ∧ DenotesNat e s w.length ∧ L s u v := by
  intro rej s c v c' n hc
  constructor
  · intro hp
    cases hp with
    | @slice _ _ k _ _ _ _ _ h1 h2 h3 =>
      obtain ⟨u, rest, h4, h5, rfl, rfl⟩ := (h ..).1 h3
      dsimp only at h4
      rw [List.drop_take, Nat.add_sub_cancel_left] at h4
      have hl : ((c.input.drop c.offset).take k).length = k := by
        rw [List.length_take, List.length_drop]; omega
      refine ⟨(c.input.drop c.offset).take k, (c.input.drop c.offset).drop k, (List.take_append_drop ..).symm, ⟨u, rest, h4, ?_, h5⟩, ?_, rfl⟩
      · rw [hl]; exact h1
      · rw [hl]
  · rintro ⟨_, rest, h1, ⟨u, left, rfl, h2, h3⟩, rfl, rfl⟩
    have hlen := congrArg List.length h1
    rw [List.length_drop, List.length_append (as := u ++ left)] at hlen
    refine .slice h2 (by omega) ((h ..).2 ⟨u, left, ?_, h3, rfl, rfl⟩)
    dsimp only
    rw [List.drop_take, Nat.add_sub_cancel_left, h1, List.take_left]

theorem readsAt_letFormat {x : String} (h : ReadsAt m f L) (h' : Reads m g L') :
    ReadsAt m (.letFormat f x g) fun s w v => ∃ u u' z, w = u ++ u' ∧ L s u z ∧ L' (.single x z s) u' v := by
  intro rej s c v c' n hc
  constructor
  · intro hp
    cases hp with
    | letFormat h1 h2 =>
      obtain ⟨u, rest, h3, h4, rfl, rfl⟩ := (h _ _ _ _ _ _ hc).1 h1
      obtain ⟨u', rest', h5, h6, rfl, rfl⟩ := (h' ..).1 h2
      dsimp only at h5
      rw [drop_step h3] at h5
      refine ⟨u ++ u', rest', by rw [h3, h5, List.append_assoc], ⟨u, u', _, rfl, h4, h6⟩, ?_, rfl⟩
      rw [List.length_append, Nat.add_assoc]
  · rintro ⟨_, rest, h1, ⟨u, u', z, rfl, h3, h4⟩, rfl, rfl⟩
    rw [List.append_assoc] at h1
    refine .letFormat (k := 0) (k' := 0) ((h _ _ _ _ _ _ hc).2 ⟨u, _, h1, h3, rfl, rfl⟩) ((h' ..).2 ⟨u', rest, drop_step h1, h4, ?_, rfl⟩)
    rw [List.length_append, Nat.add_assoc]

theorem within_step {c : ReadCtxt} {u rest : List UInt8} (h : c.input.drop c.offset = u ++ rest) (hu : u ≠ []) :
    c.offset + u.length ≤ c.input.length := by
  have hlen := congrArg List.length h
  rw [List.length_drop, List.length_append] at hlen
  have := List.length_pos_iff.2 hu
  omega

theorem reads_letFormat_at {x : String} (h : Reads m f L) (hn : ∀ s u z, L s u z → u ≠ []) (h' : ReadsAt m g L') :
    Reads m (.letFormat f x g) fun s w v => ∃ u u' z, w = u ++ u' ∧ L s u z ∧ L' (.single x z s) u' v := by
  intro rej s c v c' n
  constructor
  · intro hp
    cases hp with
    | letFormat h1 h2 =>
      obtain ⟨u, rest, h3, h4, rfl, rfl⟩ := (h ..).1 h1
      obtain ⟨u', rest', h5, h6, rfl, rfl⟩ := (h' _ _ _ _ _ _ (within_step h3 (hn _ _ _ h4))).1 h2
      dsimp only at h5
      rw [drop_step h3] at h5
      refine ⟨u ++ u', rest', by rw [h3, h5, List.append_assoc], ⟨u, u', _, rfl, h4, h6⟩, ?_, rfl⟩
      rw [List.length_append, Nat.add_assoc]
  · rintro ⟨_, rest, h1, ⟨u, u', z, rfl, h3, h4⟩, rfl, rfl⟩
    rw [List.append_assoc] at h1
    refine .letFormat (k := 0) (k' := 0) ((h ..).2 ⟨u, _, h1, h3, rfl, rfl⟩)
      ((h' _ _ _ _ _ _ (within_step h1 (hn _ _ _ h3))).2 ⟨u', rest, drop_step h1, h4, ?_, rfl⟩)
    rw [List.length_append, Nat.add_assoc]

theorem reads_maybe {e : Expr} (h : Reads m f L) :
    Reads m (.maybe e f) fun s u v => (DenotesBool e s true ∧ ∃ z, L s u z ∧ v = .optSome z) ∨ (DenotesBool e s false ∧ u = [] ∧ v = .optNone) := by
  intro rej s c v c' n
  constructor
  · intro hp
    cases hp with
    | maybe_some h1 h2 =>
      obtain ⟨u, rest, h3, h4, h5⟩ := (h ..).1 h2
      exact ⟨u, rest, h3, .inl ⟨h1, _, h4, rfl⟩, h5⟩
    | maybe_none h1 => exact ⟨[], _, rfl, .inr ⟨h1, rfl, rfl⟩, rfl, rfl⟩
  · rintro ⟨u, rest, h3, ⟨h1, z, h4, rfl⟩ | ⟨h1, rfl, rfl⟩, h5⟩
    · exact .maybe_some h1 ((h ..).2 ⟨u, rest, h3, h4, h5⟩)
    · obtain ⟨rfl, rfl⟩ := h5
      exact .maybe_none h1

theorem reads_fixedAll {k : Nat} : ReadsAll m (List.replicate k Helper.u8) fun _ u vs => u.length = k ∧ vs = u.map Value.u8 := by
  induction k with
  | zero =>
    intro rej s c vs c' n
    rw [List.replicate_zero, readsAll_nil rej s c vs c' n]
    constructor
    · rintro ⟨u, r, h1, ⟨rfl, rfl⟩, h2⟩; exact ⟨_, r, h1, ⟨rfl, rfl⟩, h2⟩
    · rintro ⟨u, r, h1, ⟨h, rfl⟩, h2⟩
      obtain rfl := List.length_eq_zero_iff.1 h
      exact ⟨_, r, h1, ⟨rfl, rfl⟩, h2⟩
  | succ k ih =>
    intro rej s c vs c' n
    rw [List.replicate_succ, readsAll_cons fixed_u8.reads ih rej s c vs c' n]
    constructor
    · rintro ⟨_, r, h1, ⟨u, u', _, _, rfl, rfl, ⟨hu, rfl⟩, hu', rfl⟩, h2⟩
      obtain ⟨b, rfl⟩ := List.length_eq_one_iff.1 hu
      exact ⟨_, r, h1, ⟨by simp [hu'], rfl⟩, h2⟩
    · rintro ⟨u, r, h1, ⟨hu, rfl⟩, h2⟩
      cases u with
      | nil => cases hu
      | cons b u => exact ⟨_, r, h1, ⟨[b], u, _, _, rfl, rfl, ⟨rfl, rfl⟩, Nat.succ.inj hu, rfl⟩, h2⟩

end Grammar

namespace Riff

open Grammar Helper Formats

variable {m : Module}

theorem reads_tag : Reads m anyTag fun _ u v => u.length = 4 ∧ v = tupleOf u :=
  (reads_tuple reads_fixedAll).congr fun s u v => by
    constructor
    · rintro ⟨vs, ⟨h, rfl⟩, rfl⟩; exact ⟨h, rfl⟩
    · rintro ⟨h, rfl⟩; exact ⟨_, ⟨h, rfl⟩, rfl⟩

theorem size_lt {u : List UInt8} (hu : u.length = 4) : littleEnd u < 2 ^ 32 := by
  have := littleEnd_lt u
  rw [hu] at this
  exact this

theorem length_var (t : Value) (s : Scope Format) (u : List UInt8) (n : Nat) (hu : u.length = 4) :
    DenotesNat (.var "length") (.single "length" (wordValue .b32 false u) (.single "tag" t s)) n ↔ n = littleEnd u := by
  have hb : littleEnd u < 2 ^ 32 := size_lt hu
  have h1 : Denotes (.var "length") (.single "length" (wordValue .b32 false u) (.single "tag" t s)) (num .b32 (littleEnd u)) := rfl
  have h2 : (num .b32 (littleEnd u)).unwrapUsize = .ok (littleEnd u) := by rw [num_eq hb]; rfl
  constructor
  · rintro ⟨v, hv, hn⟩
    cases h1.symm.trans hv
    cases h2.symm.trans hn
    rfl
  · rintro rfl
    exact ⟨_, h1, h2⟩

theorem odd_var (d t : Value) (s : Scope Format) (u : List UInt8) (b : Bool) (hu : u.length = 4) :
    DenotesBool (isOdd (.var "length")) (.single "data" d (.single "length" (wordValue .b32 false u) (.single "tag" t s))) b ↔
      b = decide (littleEnd u % 2 = 1) := by
  have hb : littleEnd u < 2 ^ 32 := size_lt hu
  have h1 : Denotes (isOdd (.var "length")) (.single "data" d (.single "length" (wordValue .b32 false u) (.single "tag" t s)))
      (.bool (decide (littleEnd u % 2 = 1))) := by
    show (Expr.evalValue _ _) = _
    simp only [isOdd, wordValue, Bool.false_eq_true, if_false]
    rw [num_eq hb]
    have : ∀ n : Fin (2 ^ 32), Expr.evalValue (.intRel .eq (.arith .rem (.var "length") (lit .b32 2)) (lit .b32 1))
        (.single "data" d (.single "length" (.mapped (.tuple (u.map Value.u8)) (.num (.fixed .b32) n)) (.single "tag" t s))) =
        .ok (.bool (decide (n.val % 2 = 1))) := by
      intro n
      have hm : Value.mkNum (.fixed .b32) (n.val % 2) = .ok (num .b32 (n.val % 2)) :=
        mkNum_eq (Nat.lt_of_lt_of_le (Nat.mod_lt _ (by decide)) (by decide))
      have h2 : Expr.eval (.arith .rem (.var "length") (lit .b32 2))
          (.single "data" d (.single "length" (.mapped (.tuple (u.map Value.u8)) (.num (.fixed .b32) n)) (.single "tag" t s))) =
          .ok (num .b32 (n.val % 2)) := hm
      unfold Expr.evalValue
      rw [Expr.eval, h2]
      have h3 : ∀ k, k < 2 → Value.intRel .eq (num .b32 k) (num .b32 1) = .ok (.bool (decide (k = 1))) := by
        intro k hk
        rcases (by omega : k = 0 ∨ k = 1) with rfl | rfl <;> rfl
      exact congrArg (fun x => (x >>= fun v => Panicky.ok v.coerceMapped)) (h3 _ (Nat.mod_lt _ (by decide)))
    exact this _
  constructor
  · intro h
    cases h1.symm.trans h
    rfl
  · rintro rfl
    exact h1

/-- what a chunk reads, when its tag and its data read this -/
theorem reads_chunk {tag data : Format} {T D : List UInt8 → Value → Prop} (hT : Reads m tag fun _ u v => T u v)
    (hD : Reads m data fun _ u v => D u v) :
    Reads m (chunk tag data) fun _ w v => ∃ t size u left tv dv, T t tv ∧ size.length = 4 ∧ D u dv ∧
      littleEnd size = u.length + left.length ∧ w = t ++ size ++ u ++ left ++ padding (littleEnd size) ∧
      v = .record [("tag", tv), ("length", lengthOf size), ("data", dv), ("pad", paddingValue (littleEnd size))] := by
  have hchain : chunk tag data = .hint (.letFormat tag "tag" (.letFormat (word .b32 false) "length"
      (.letFormat (.slice (.var "length") data) "data" (.letFormat (.maybe (isOdd (.var "length")) (isByte 0)) "pad"
        (.compute (.record [("tag", .var "tag"), ("length", .var "length"), ("data", .var "data"), ("pad", .var "pad")])))))) := rfl
  rw [hchain]
  have hall : ∀ (s : Scope Format) (a b c d : Value),
      Denotes (.record [("tag", .var "tag"), ("length", .var "length"), ("data", .var "data"), ("pad", .var "pad")])
        (.single "pad" d (.single "data" c (.single "length" b (.single "tag" a s))))
        (.record [("tag", a), ("length", b), ("data", c), ("pad", d)]) := fun _ _ _ _ _ => rfl
  refine (reads_hint (reads_letFormat hT (reads_letFormat_at (fixed_word .b32 false).reads
    (fun s u z h => List.length_pos_iff.1 (by rw [h.1]; decide))
    (readsAt_letFormat (readsAt_slice hD) (reads_letFormat (reads_maybe (exactly_byte 0).reads) reads_compute))))).congr fun s w v => ?_
  constructor
  · rintro ⟨t, _, tv, rfl, ht, size, _, _, rfl, ⟨hs, rfl⟩, _, _, dv, rfl, ⟨u, left, rfl, h1, hd⟩, pad, _, pv, rfl, hpad, rfl, hv⟩
    replace hs : size.length = 4 := hs
    have hn := (length_var _ _ _ _ hs).1 h1
    have hp : pad = padding (littleEnd size) ∧ pv = paddingValue (littleEnd size) := by
      rcases hpad with ⟨hb, z, ⟨rfl, rfl⟩, rfl⟩ | ⟨hb, rfl, rfl⟩
      · have := of_decide_eq_true ((odd_var _ _ _ _ _ hs).1 hb).symm
        rw [padding, paddingValue, if_pos this, if_pos this]; exact ⟨rfl, rfl⟩
      · have := of_decide_eq_false ((odd_var _ _ _ _ _ hs).1 hb).symm
        rw [padding, paddingValue, if_neg this, if_neg this]; exact ⟨rfl, rfl⟩
    obtain ⟨rfl, rfl⟩ := hp
    cases (hall _ _ _ _ _).symm.trans hv
    refine ⟨t, size, u, left, tv, dv, ht, hs, hd, by rw [← hn, List.length_append], by simp only [List.append_assoc, List.append_nil], rfl⟩
  · rintro ⟨t, size, u, left, tv, dv, ht, hs, hd, hn, rfl, rfl⟩
    refine ⟨t, size ++ ((u ++ left) ++ (padding (littleEnd size) ++ [])), tv, by simp only [List.append_assoc, List.append_nil], ht,
      size, (u ++ left) ++ (padding (littleEnd size) ++ []), _, rfl, ⟨hs, rfl⟩, u ++ left, padding (littleEnd size) ++ [], dv, rfl,
      ⟨u, left, rfl, (length_var _ _ _ _ hs).2 (by rw [hn, List.length_append]), hd⟩, padding (littleEnd size), [],
      paddingValue (littleEnd size), rfl, ?_, rfl, hall _ _ _ _ _⟩
    by_cases ho : littleEnd size % 2 = 1
    · rw [padding, paddingValue, if_pos ho, if_pos ho]
      exact .inl ⟨(odd_var _ _ _ _ _ hs).2 (decide_eq_true ho).symm, _, ⟨rfl, rfl⟩, rfl⟩
    · rw [padding, paddingValue, if_neg ho, if_neg ho]
      exact .inr ⟨(odd_var _ _ _ _ _ hs).2 (decide_eq_false ho).symm, rfl, rfl⟩

theorem pieces_bytes {u : List UInt8} {vs : List Value} :
    Pieces (fun u v => u.length = 1 ∧ v = .u8 (u.headD 0)) u vs ↔ vs = u.map Value.u8 := by
  constructor
  · intro h
    induction h with
    | nil => rfl
    | cons h _ ih =>
      obtain ⟨h1, rfl⟩ := h
      obtain ⟨b, rfl⟩ := List.length_eq_one_iff.1 h1
      rw [ih]; rfl
  · rintro rfl
    induction u with
    | nil => exact .nil
    | cons b u ih => exact .cons (u := [b]) ⟨rfl, rfl⟩ ih

theorem reads_opaque : Reads m (.repeat_ u8) fun _ u v => v = seqOf u :=
  (reads_repeat fixed_u8.reads).congr fun s u v => by
    constructor
    · rintro ⟨vs, h, rfl⟩; rw [pieces_bytes.1 h]; rfl
    · rintro rfl; exact ⟨_, pieces_bytes.2 rfl, rfl⟩

section
variable {l : Nat} (h0 : m.items[l]? = some ⟨[], [], anyTag⟩) (h1 : m.items[l + 1]? = some ⟨[], [], anyChunk l⟩)
  (h2 : m.items[l + 2]? = some ⟨[], [], subchunks l⟩)
include h0

theorem reads_anyChunk : Reads m (anyChunk l) fun _ u v => ∃ c : Chunk, c.Valid ∧ u = c.encode ∧ v = c.value := by
  refine (reads_chunk (T := fun u v => u.length = 4 ∧ v = tupleOf u) (D := fun u v => v = seqOf u)
    (reads_item h0 reads_tag) reads_opaque).congr fun s u v => ?_
  constructor
  · rintro ⟨t, size, d, left, _, _, ⟨ht, rfl⟩, hs, rfl, hn, rfl, rfl⟩
    exact ⟨⟨t, size, d, left⟩, ⟨ht, hs, hn⟩, rfl, rfl⟩
  · rintro ⟨c, ⟨ht, hs, hn⟩, rfl, rfl⟩
    exact ⟨c.tag, c.size, c.data, c.left, _, _, ⟨ht, rfl⟩, hs, rfl, hn, rfl, rfl⟩

include h1

theorem reads_subchunks : Reads m (subchunks l) fun _ u v => ∃ (form : List UInt8) (cs : List Chunk), form.length = 4 ∧
    (∀ c ∈ cs, c.Valid) ∧ u = form ++ cs.flatMap Chunk.encode ∧
    v = .record [("tag", tupleOf form), ("chunks", .seq (.strict (cs.map Chunk.value)))] := by
  have hchain : subchunks l = .hint (.letFormat (.itemVar l [] []) "tag" (.letFormat (.repeat_ (.itemVar (l + 1) [] [])) "chunks"
    (.compute (.record [("tag", .var "tag"), ("chunks", .var "chunks")])))) := rfl
  rw [hchain]
  have hall : ∀ (s : Scope Format) (a b : Value), Denotes (.record [("tag", .var "tag"), ("chunks", .var "chunks")])
    (.single "chunks" b (.single "tag" a s)) (.record [("tag", a), ("chunks", b)]) := fun _ _ _ => rfl
  refine (reads_hint (reads_letFormat (reads_item h0 reads_tag) (reads_letFormat (reads_repeat (reads_item h1 (reads_anyChunk h0)))
    reads_compute))).congr fun s u v => ?_
  constructor
  · rintro ⟨form, _, _, rfl, ⟨hf, rfl⟩, w, _, _, rfl, ⟨vs, hp, rfl⟩, rfl, hv⟩
    obtain ⟨cs, hcs, rfl, rfl⟩ := pieces_made.1 hp
    cases (hall _ _ _).symm.trans hv
    exact ⟨form, cs, hf, hcs, by rw [List.append_nil], rfl⟩
  · rintro ⟨form, cs, hf, hcs, rfl, rfl⟩
    exact ⟨form, cs.flatMap Chunk.encode ++ [], _, by rw [List.append_nil], ⟨hf, rfl⟩, _, [], _, rfl,
      ⟨_, pieces_made.2 ⟨cs, hcs, rfl, rfl⟩, rfl⟩, rfl, hall _ _ _⟩

include h2

theorem reads_file : Reads m (chunk (isBytes [0x52, 0x49, 0x46, 0x46]) (.itemVar (l + 2) [] [])) fun _ u v =>
    ∃ f : File, f.Valid ∧ u = f.encode ∧ v = f.value := by
  refine (reads_chunk (T := fun u v => u = magic ∧ v = tupleOf magic)
    (D := fun u v => ∃ (form : List UInt8) (cs : List Chunk), form.length = 4 ∧ (∀ c ∈ cs, c.Valid) ∧ u = form ++ cs.flatMap Chunk.encode ∧
      v = .record [("tag", tupleOf form), ("chunks", .seq (.strict (cs.map Chunk.value)))])
    (exactly_bytes magic).reads (reads_item h2 (reads_subchunks h0 h1))).congr fun s u v => ?_
  constructor
  · rintro ⟨_, size, _, left, _, _, ⟨rfl, rfl⟩, hs, ⟨form, cs, hf, hcs, rfl, rfl⟩, hn, rfl, rfl⟩
    exact ⟨⟨size, form, cs, left⟩, ⟨hs, hf, hcs, hn⟩, rfl, rfl⟩
  · rintro ⟨f, ⟨hs, hf, hcs, hn⟩, rfl, rfl⟩
    exact ⟨_, f.size, f.body, f.left, _, _, ⟨rfl, rfl⟩, hs, ⟨f.form, f.chunks, hf, hcs, rfl, rfl⟩, hn, rfl, rfl⟩

end

/-! ### no panics -/

/-- Every expression of the format has a value at every place of an input that is not too long. -/
def SafeIn (m : Module) (f : Format) : Prop := ∀ codes s c, c.offset ≤ c.input.length → c.input.length + 2 ^ 32 ≤ usizeCard → Safe m codes f s c

theorem Total.safeIn {f : Format} (h : Total m f) : SafeIn m f := fun codes s c _ _ => h codes s c

theorem step_within {c : ReadCtxt} {u rest : List UInt8} (hc : c.offset ≤ c.input.length) (h : c.input.drop c.offset = u ++ rest) :
    c.offset + u.length ≤ c.input.length := by
  have hlen := congrArg List.length h
  rw [List.length_drop, List.length_append] at hlen
  omega

theorem safe_chunk {tag data : Format} {T : List UInt8 → Value → Prop} (hT : Reads m tag fun _ u v => T u v)
    {D : List UInt8 → Value → Prop} (hD : Reads m data fun _ u v => D u v)
    (ht : SafeIn m tag) (hd : SafeIn m data) : SafeIn m (chunk tag data) := by
  intro codes s c hc hl
  refine .hint (.letFormat (ht codes s c hc hl) fun tv c1 k1 hp1 => ?_)
  obtain ⟨u1, r1, e1, _, rfl, rfl⟩ := (hT ..).1 hp1
  have hc1 := step_within hc e1
  refine .letFormat ((fixed_word .b32 false).total _ _ _) fun lv c2 k2 hp2 => ?_
  obtain ⟨size, r2, e2, ⟨hs, rfl⟩, rfl, rfl⟩ := ((fixed_word .b32 false).reads ..).1 hp2
  have hc2 := step_within (c := ⟨c.input, _⟩) hc1 e2
  have hn := size_lt (u := size) hs
  dsimp only at hc2
  refine .letFormat (.slice ((length_var _ _ _ _ hs).2 rfl) ?_ fun hle => ?_) fun dv c3 k3 hp3 => ?_
  · dsimp only; omega
  · refine hd _ _ _ ?_ ?_
    · dsimp only at hle ⊢
      rw [List.length_take]; omega
    · dsimp only
      rw [List.length_take]; omega
  · exact .letFormat (.maybe ((odd_var _ _ _ _ _ hs).2 rfl) fun _ => (exactly_byte 0).total _ _ _) fun pv c4 k4 _ =>
      .compute (v := .record [("tag", tv), ("length", wordValue .b32 false size), ("data", dv), ("pad", pv)]) rfl

theorem safe_item {l : Nat} {f : Format} (hi : m.items[l]? = some ⟨[], [], f⟩) (h : SafeIn m f) : SafeIn m (.itemVar l [] []) :=
  fun codes _ c hc hl => .itemVar hi (by simp) (by simp) fun _ _ _ _ => h codes _ c hc hl

theorem safe_repeat {f : Format} {L : Scope Format → List UInt8 → Value → Prop} (hr : Reads m f L) (h : SafeIn m f) : SafeIn m (.repeat_ f) := by
  intro codes s c hc hl
  refine .repeat_ fun vs c' k hp => ?_
  obtain ⟨u, rest, e, _, rfl, rfl⟩ := (many_pieces hr).1 hp
  exact h codes s _ (step_within hc e) hl

theorem safe_tag : SafeIn m anyTag := Total.safeIn (total_tuple fun f hf => by
  rw [List.eq_of_mem_replicate hf]; exact fixed_u8.total)

section
variable {l : Nat} (h0 : m.items[l]? = some ⟨[], [], anyTag⟩) (h1 : m.items[l + 1]? = some ⟨[], [], anyChunk l⟩)
  (h2 : m.items[l + 2]? = some ⟨[], [], subchunks l⟩)
include h0

theorem safe_anyChunk : SafeIn m (anyChunk l) :=
  safe_chunk (T := fun u v => u.length = 4 ∧ v = tupleOf u) (D := fun u v => v = seqOf u) (reads_item h0 reads_tag) reads_opaque
    (safe_item h0 safe_tag) (Total.safeIn (total_repeat fixed_u8.total))

include h1

theorem safe_subchunks : SafeIn m (subchunks l) := by
  intro codes s c hc hl
  refine .hint (.letFormat (safe_item h0 safe_tag codes s c hc hl) fun tv c1 k1 hp1 => ?_)
  obtain ⟨u1, r1, e1, _, rfl, rfl⟩ := (reads_item h0 reads_tag ..).1 hp1
  exact .letFormat (safe_repeat (reads_item h1 (reads_anyChunk h0)) (safe_item h1 (safe_anyChunk h0)) _ _ _ (step_within hc e1) hl)
    fun v c' k _ => .compute (v := .record [("tag", tv), ("chunks", v)]) rfl

include h2

theorem safe_file : SafeIn m (chunk (isBytes [0x52, 0x49, 0x46, 0x46]) (.itemVar (l + 2) [] [])) :=
  safe_chunk (T := fun u v => u = magic ∧ v = tupleOf magic) (exactly_bytes magic).reads (reads_item h2 (reads_subchunks h0 h1))
    (Total.safeIn (exactly_bytes magic).total) (safe_item h2 (safe_subchunks h0 h1))

end

end Riff
end Doodle
