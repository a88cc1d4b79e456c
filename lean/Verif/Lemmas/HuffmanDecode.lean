import Verif.Lemmas.HuffmanTree
import Verif.Lemmas.Words

/-! The decoder compiled from a Huffman code: what it is, and what it reads. -/

namespace Doodle
namespace HuffmanTree

open Compiler

/-! ### a tree is built or refused -/

theorem growBranches_ok {grow : Nat → LevelBranch → Run (Option MatchTree)} :
    ∀ {bs : List (ByteSet × LevelBranch)} {pos : Nat}, (∀ pos, ∀ b ∈ bs, ∃ r, grow pos b.2 = .ok r) →
      ∃ r, Level.growBranches grow pos bs = .ok r
  | [], _, _ => ⟨_, rfl⟩
  | (bs, nexts) :: rest, pos, hg => by
    simp only [Level.growBranches]
    obtain ⟨t, h0⟩ := hg pos (bs, nexts) List.mem_cons_self
    rw [h0]
    simp only [Outcome.bind_ok]
    cases t with
    | none => exact ⟨_, rfl⟩
    | some t =>
      obtain ⟨ts, ih⟩ := growBranches_ok (grow := grow) (bs := rest) (pos := pos + 1)
        fun pos b hb => hg pos b (List.mem_cons_of_mem _ hb)
      simp only [ih, Outcome.bind_ok]
      cases ts <;> exact ⟨_, rfl⟩

theorem grow_ok {m : Module} {ord : HashOrder} (ho : ord.Valid) {n : Nat} :
    ∀ {depth : Nat} {path : List Nat} {es : LevelBranch}, (∀ e ∈ es, Simple e.2) →
      ∃ r, Level.grow m ord (n + 6) depth path es = .ok r := by
  intro depth
  induction depth with
  | zero =>
    intro path es _
    unfold Level.grow
    split <;> exact ⟨_, rfl⟩
  | succ depth ih =>
    intro path es he
    unfold Level.grow
    split
    · exact ⟨_, rfl⟩
    · obtain ⟨r, hr, hw⟩ := mergeAll_simple (m := m) (n := n) (l := Level.reject)
        (es := Level.sortByIx (ord path es)) (fun b hb => by cases hb)
        (fun e hm => he e ((ho path es e).1 (mem_sortByIx.1 hm)))
      simp only [hr, Outcome.bind_ok]
      cases r with
      | none => exact ⟨_, rfl⟩
      | some l =>
        obtain ⟨ts, hts⟩ := growBranches_ok
          (grow := fun pos nexts => Level.grow m ord (n + 6) depth (pos :: path) nexts)
          (bs := l.branches) (pos := 0) fun pos b hb => ih (fun e hm => hw l rfl b hb e hm)
        simp only [hts, Outcome.bind_ok]
        cases ts <;> exact ⟨_, rfl⟩

theorem build_ok {o : BuildOpts} (ho : o.ord.Valid) (hf : 6 ≤ o.fuel) (codes : List (List UInt8 × Nat)) :
    ∃ r, MatchTree.build .empty o.ord o.fuel (codes.map Decoder.huffmanBranch) .empty = .ok r := by
  unfold MatchTree.build
  rw [show o.fuel = (o.fuel - 6) + 6 by omega]
  exact grow_ok ho (initial_simple codes 0)

/-! ### the decoder -/

/-- the decoders of the bits of a code word -/
def bitDecoders (bits : List UInt8) : List Decoder := bits.map fun b => .byte (ByteSet.fromIter [b])

/-- the decoder of a code word -/
def codeDecoder (p : List UInt8 × Nat) : Decoder :=
  .map (.tuple (bitDecoders p.1)) (.lambda "_" (.lit .b16 (Fin.ofNat _ p.2)))

theorem fields_eq [DecidableEq Next] {m : Module} {o : BuildOpts} (bits : List UInt8) (next : Next) (st : CompSt) :
    compileFields m o (word bits) next st = .ok (bitDecoders bits, st) := by
  induction bits with
  | nil => simp [word, bitDecoders, compileFields]
  | cons b bits ih =>
    simp only [word, List.map_cons, compileFields, compileFormat, Outcome.bind_ok]
    unfold word at ih
    rw [ih]
    rfl

theorem all_eq [DecidableEq Next] {m : Module} {o : BuildOpts} (codes : List (List UInt8 × Nat)) (next : Next)
    (st : CompSt) :
    compileAll m o (codes.map Decoder.huffmanBranch) next st = .ok (codes.map codeDecoder, st) := by
  induction codes with
  | nil => simp [compileAll]
  | cons p codes ih =>
    have he := fields_eq (m := m) (o := o) p.1 next st
    unfold word at he
    simp only [List.map_cons, compileAll, Decoder.huffmanBranch, compileFormat, he, Outcome.bind_ok]
    rw [ih]
    rfl

/-- The decoder of a Huffman code: its tree, and one decoder per code word. -/
theorem compile_eq [DecidableEq Next] {o : BuildOpts} (codes : List (List UInt8 × Nat)) (r : Option MatchTree)
    (hr : MatchTree.build .empty o.ord o.fuel (codes.map Decoder.huffmanBranch) .empty = .ok r) :
    compileOne o (.union (codes.map Decoder.huffmanBranch)) =
      .ok (r.map fun t => .branch t (codes.map codeDecoder)) := by
  unfold compileOne
  simp only [compileFormat, all_eq, Outcome.bind_ok, buildOrErr, hr]
  cases r <;> simp [Outcome.lift, Outcome.ofOption]

/-! ### words -/

theorem words_word {m : Module} {bits u : List UInt8} : Words m (word bits) u ↔ u = bits := by
  induction bits generalizing u with
  | nil =>
    constructor
    · intro h; cases h; rfl
    · rintro rfl; exact .nil
  | cons b bits ih =>
    constructor
    · intro h
      cases h with
      | cons h1 h2 =>
        cases h1 with
        | byte hb =>
          rw [ByteSet.C01_contains_fromIter] at hb
          simp at hb
          rw [ih.1 h2, hb]
          rfl
    · rintro rfl
      exact .cons (u := [b]) (.byte (by rw [ByteSet.C01_contains_fromIter]; simp)) (ih.2 rfl)

theorem word_branch {m : Module} {p : List UInt8 × Nat} {u : List UInt8} :
    Cat (Word m (Decoder.huffmanBranch p)) (Follow m .empty) u ↔ u = p.1 := by
  constructor
  · rintro ⟨x, y, rfl, h1, h2⟩
    cases h2
    cases h1 with
    | map h1 =>
      cases h1 with
      | tuple h1 => simpa using words_word.1 h1
  · rintro rfl
    exact ⟨p.1, [], by simp, .map (.tuple (words_word.2 rfl)), rfl⟩

theorem viable_branch {m : Module} {p : List UInt8 × Nat} {u : List UInt8} :
    Viable (Cat (Word m (Decoder.huffmanBranch p)) (Follow m .empty)) u ↔ u <+: p.1 := by
  constructor
  · rintro ⟨v, h⟩; exact ⟨v, word_branch.1 h⟩
  · rintro ⟨v, h⟩; exact ⟨v, word_branch.2 h⟩

theorem word_plain {m : Module} {E : Nat → Bool} {k : Nat} {last : Bool} (bits : List UInt8) :
    Format.FieldsPlain m E k last (word bits) := by
  induction bits with
  | nil => simp [word, Format.FieldsPlain]
  | cons b bits ih =>
    unfold word at ih
    simp only [word, List.map_cons, Format.FieldsPlain, Format.Plain]
    exact ⟨⟨b, by rw [ByteSet.C01_contains_fromIter]; simp⟩, ih⟩

theorem branch_plain {m : Module} {E : Nat → Bool} {k : Nat} {last : Bool} (codes : List (List UInt8 × Nat)) :
    ∀ f ∈ codes.map Decoder.huffmanBranch, f.Plain m E k last := by
  intro f hf
  obtain ⟨p, _, rfl⟩ := List.mem_map.1 hf
  simp only [Decoder.huffmanBranch, Format.Plain]
  exact word_plain p.1

/-! ### what a code word's decoder reads -/

theorem readByte_drop {c : ReadCtxt} {b : UInt8} {r : List UInt8} (h : c.input.drop c.offset = b :: r) :
    c.readByte = some (b, ⟨c.input, c.offset + 1⟩) ∧ c.input.drop (c.offset + 1) = r := by
  have h1 : c.input[c.offset]? = some b := by
    have := congrArg (·[0]?) h
    simpa using this
  refine ⟨by simp [ReadCtxt.readByte, h1], ?_⟩
  have := congrArg List.tail h
  simpa using this

theorem readByte_end {c : ReadCtxt} (h : c.input.drop c.offset = []) : c.readByte = none := by
  have h1 : c.input[c.offset]? = none := by
    rw [List.getElem?_eq_none]
    simpa using h
  simp [ReadCtxt.readByte, h1]

theorem bits_run {env : Env} {n : Nat} {scope : Scope Decoder} {bits rest : List UInt8} :
    ∀ {c : ReadCtxt} {vs : List Value}, c.input.drop c.offset = bits ++ rest →
      ∃ vs', Decoder.foldItems (fun d c => Decoder.parse env (n + 1) d scope c) (bitDecoders bits) (.new (vs, c)) =
        .ok (.new (vs', ⟨c.input, c.offset + bits.length⟩)) := by
  induction bits with
  | nil => intro c vs _; exact ⟨vs, rfl⟩
  | cons b bits ih =>
    intro c vs h
    obtain ⟨h1, h2⟩ := readByte_drop h
    obtain ⟨vs', h3⟩ := ih (c := ⟨c.input, c.offset + 1⟩) (vs := vs ++ [.u8 b]) h2
    refine ⟨vs', ?_⟩
    have hb : (ByteSet.fromIter [b]).contains b = true := by rw [ByteSet.C01_contains_fromIter]; simp
    simp only [bitDecoders, List.map_cons, Decoder.foldItems, WithErr.new, Decoder.parse, h1, hb, if_true,
      Outcome.bind_ok, Decoder.push, List.append_nil]
    unfold bitDecoders at h3
    rw [show c.offset + (b :: bits).length = c.offset + 1 + bits.length by simp; omega]
    exact h3

theorem bits_read {env : Env} {n : Nat} {scope : Scope Decoder} {bits : List UInt8} :
    ∀ {a a' : Decoder.Acc},
      Decoder.foldItems (fun d c => Decoder.parse env n d scope c) (bitDecoders bits) a = .ok a' →
      a.value.2.input.drop a.value.2.offset = bits ++ a'.value.2.input.drop a'.value.2.offset := by
  induction bits with
  | nil => intro a a' h; cases h; rfl
  | cons b bits ih =>
    intro a a' h
    obtain ⟨w, h1, h2⟩ := Outcome.bind_eq_ok.1 h
    have := ih h2
    cases n with
    | zero => cases h1
    | succ n =>
      cases hd : a.value.2.input.drop a.value.2.offset with
      | nil =>
        simp only [Decoder.parse, readByte_end hd] at h1
        cases h1
      | cons x r =>
        obtain ⟨h3, h4⟩ := readByte_drop hd
        simp only [Decoder.parse, h3] at h1
        split at h1
        · next hc =>
          cases h1
          rw [ByteSet.C01_contains_fromIter] at hc
          simp at hc
          subst hc
          simp only [Decoder.push, WithErr.new] at this
          rw [h4] at this
          rw [this]
          rfl
        · cases h1

/-- the decoder of a code word reads it, and gives the symbol -/
theorem code_run {env : Env} {n : Nat} {scope : Scope Decoder} {p : List UInt8 × Nat} {c : ReadCtxt}
    {rest : List UInt8} (h : c.input.drop c.offset = p.1 ++ rest) :
    ∃ vs, Decoder.parse env (n + 3) (codeDecoder p) scope c =
      .ok (.new (.mapped (.tuple vs) (.num (.fixed .b16) (Fin.ofNat _ p.2)), ⟨c.input, c.offset + p.1.length⟩)) := by
  obtain ⟨vs, hv⟩ := bits_run (env := env) (n := n) (scope := scope) (vs := []) h
  refine ⟨vs, ?_⟩
  have ht : Decoder.parse env (n + 2) (.tuple (bitDecoders p.1)) scope c =
      (do
        let acc ← Decoder.foldItems (fun d c => Decoder.parse env (n + 1) d scope c) (bitDecoders p.1) (.new ([], c))
        .ok (acc.map fun r => (.tuple r.1, r.2))) := rfl
  have hm : Decoder.parse env (n + 3) (codeDecoder p) scope c =
      (do
        let w ← Decoder.parse env (n + 2) (.tuple (bitDecoders p.1)) scope c
        let v ← Outcome.ofPanicky ((Expr.lambda "_" (.lit .b16 (Fin.ofNat _ p.2))).evalLambda scope w.value.1)
        .ok (w.map fun r => (.mapped r.1 v, r.2))) := rfl
  rw [hm, ht, hv]
  rfl

theorem bits_err {env : Env} {n : Nat} {scope : Scope Decoder} {bits : List UInt8} :
    ∀ {a : Decoder.Acc}, ¬ bits <+: a.value.2.input.drop a.value.2.offset →
      ∃ e, Decoder.foldItems (fun d c => Decoder.parse env (n + 1) d scope c) (bitDecoders bits) a = .err e := by
  induction bits with
  | nil => intro a h; exact absurd (List.nil_prefix) h
  | cons b bits ih =>
    intro a h
    simp only [bitDecoders, List.map_cons, Decoder.foldItems]
    cases hd : a.value.2.input.drop a.value.2.offset with
    | nil =>
      have h1 : Decoder.parse env (n + 1) (.byte (ByteSet.fromIter [b])) scope a.value.2 =
          .err (.overbyte a.value.2.offset) := by
        simp only [Decoder.parse, readByte_end hd]
      rw [h1]
      exact ⟨_, rfl⟩
    | cons x r =>
      obtain ⟨h3, h4⟩ := readByte_drop hd
      rw [hd] at h
      by_cases hx : x = b
      · subst hx
        have hb : (ByteSet.fromIter [x]).contains x = true := by rw [ByteSet.C01_contains_fromIter]; simp
        have h1 : Decoder.parse env (n + 1) (.byte (ByteSet.fromIter [x])) scope a.value.2 =
            .ok (.new (.u8 x, ⟨a.value.2.input, a.value.2.offset + 1⟩)) := by
          simp only [Decoder.parse, h3, hb, if_true]
        rw [h1]
        simp only [Outcome.bind_ok]
        refine ih ?_
        simp only [Decoder.push, WithErr.new]
        rw [h4]
        intro hp
        exact h (List.cons_prefix_cons.2 ⟨rfl, hp⟩)
      · have hb : ¬ (ByteSet.fromIter [b]).contains x = true := by
          rw [ByteSet.C01_contains_fromIter]; simpa using hx
        have h1 : Decoder.parse env (n + 1) (.byte (ByteSet.fromIter [b])) scope a.value.2 =
            .err (.unexpected x (ByteSet.fromIter [b]) (a.value.2.offset + 1)) := by
          simp only [Decoder.parse, h3, if_neg hb]
        rw [h1]
        exact ⟨_, rfl⟩

/-- the decoder of a code word fails where it does not stand -/
theorem code_err {env : Env} {n : Nat} {scope : Scope Decoder} {p : List UInt8 × Nat} {c : ReadCtxt}
    (h : ¬ p.1 <+: c.input.drop c.offset) :
    ∃ e, Decoder.parse env (n + 3) (codeDecoder p) scope c = .err e := by
  obtain ⟨e, he⟩ := bits_err (env := env) (n := n) (scope := scope) (a := .new ([], c)) h
  refine ⟨e, ?_⟩
  have ht : Decoder.parse env (n + 2) (.tuple (bitDecoders p.1)) scope c =
      (do
        let acc ← Decoder.foldItems (fun d c => Decoder.parse env (n + 1) d scope c) (bitDecoders p.1) (.new ([], c))
        .ok (acc.map fun r => (.tuple r.1, r.2))) := rfl
  have hm : Decoder.parse env (n + 3) (codeDecoder p) scope c =
      (do
        let w ← Decoder.parse env (n + 2) (.tuple (bitDecoders p.1)) scope c
        let v ← Outcome.ofPanicky ((Expr.lambda "_" (.lit .b16 (Fin.ofNat _ p.2))).evalLambda scope w.value.1)
        .ok (w.map fun r => (.mapped r.1 v, r.2))) := rfl
  rw [hm, ht, he]
  rfl

theorem code_read {env : Env} {n : Nat} {scope : Scope Decoder} {p : List UInt8 × Nat} {c : ReadCtxt}
    {w : Parsed} (h : Decoder.parse env n (codeDecoder p) scope c = .ok w) :
    c.input.drop c.offset = p.1 ++ w.value.2.input.drop w.value.2.offset := by
  cases n with
  | zero => cases h
  | succ n =>
    simp only [codeDecoder, Decoder.parse] at h
    obtain ⟨w1, h1, h2⟩ := Outcome.bind_eq_ok.1 h
    obtain ⟨v, _, h3⟩ := Outcome.bind_eq_ok.1 h2
    cases h3
    cases n with
    | zero => cases h1
    | succ n =>
      simp only [Decoder.parse] at h1
      obtain ⟨a, h4, h5⟩ := Outcome.bind_eq_ok.1 h1
      cases h5
      exact bits_read h4

end HuffmanTree
end Doodle
