import Verif.Spec.Munch
import Verif.Props.Complete

/-! # C12: a repetition at the end goes on as long as it can begin -/

namespace Doodle
namespace Munch

open Grammar Compiler Tree

variable {m : Module} {E : Nat → Bool} {g : Format}

theorem while_stops {t : MatchTree} {p} {n : Nat} {acc acc' : Decoder.Acc} (h : Decoder.whileLoop t p n acc = .ok acc') :
    ∃ i, t.matches acc'.value.2 = some (i + 1) := by
  induction n generalizing acc with
  | zero => cases h
  | succ n ih =>
    simp only [Decoder.whileLoop] at h
    split at h
    · cases h
    · obtain ⟨w, _, h⟩ := Outcome.bind_eq_ok.1 h
      exact ih h
    · next i hi => cases h; exact ⟨_, hi⟩

theorem until_stops {t : MatchTree} {p} {n : Nat} {acc acc' : Decoder.Acc} (h : Decoder.untilLoop t p n acc = .ok acc') :
    t.matches acc'.value.2 = some 0 := by
  induction n generalizing acc with
  | zero => cases h
  | succ n ih =>
    simp only [Decoder.untilLoop] at h
    obtain ⟨w, _, h⟩ := Outcome.bind_eq_ok.1 h
    split at h
    · cases h
    · next hi => cases h; exact hi
    · exact ih h

/-- the tree of a repetition with nothing after it chooses to stop only before a byte that begins no word of the body -/
theorem tree_stops (hm : m.Plain E) {ord : HashOrder} (ho : ord.Valid) {n : Nat} {next : Next} (hd : ∀ u, Follow m next u ↔ u = [])
    (hn : next.Plain m E) (hg : g.Plain m E m.items.length false) {fs : List Format} {i j : Nat} {t : MatchTree}
    (hfs : ∀ f ∈ fs, f = .tuple [g, .repeat_ g] ∨ f = Format.EMPTY)
    (hi : fs[i]? = some Format.EMPTY) (hj : fs[j]? = some (.tuple [g, .repeat_ g])) (hij : i ≠ j)
    (ht : MatchTree.build m ord n fs next = .ok (some t)) {c : ReadCtxt}
    (h : t.matches c = some i) {b : UInt8} (hb : c.input[c.offset]? = some b) : ¬ Viable (Word m g) [b] := by
  have hpl : Format.Plain m E m.items.length next.isDone (.tuple [g, .repeat_ g]) := by
    simp only [Format.Plain, Format.FieldsPlain]
    exact ⟨hg, hg, trivial⟩
  obtain ⟨f, u, hf, ⟨r, hu⟩, ⟨z, hz⟩, hor⟩ := C13_words_selected m E hm ord ho n fs next (by
    intro f hf
    rcases hfs f hf with rfl | rfl
    · exact hpl
    · simp only [Format.EMPTY, Format.Plain, Format.FieldsPlain]) hn t ht c i h
  rw [hi] at hf
  cases hf
  have hz : u ++ z = [] := by
    obtain ⟨x, y, he, h1, h2⟩ := hz
    cases h1 with
    | tuple h1 =>
      cases h1
      rw [he, (hd _).1 h2]
      rfl
  obtain ⟨rfl, rfl⟩ := List.append_eq_nil_iff.1 hz
  have hw : Word m (.repeat_ g) [] := .repeat_ (n := 0) .zero
  have h0 : Follow m next [] := (hd _).2 rfl
  rcases hor with ⟨_, hno⟩ | hor
  · rintro ⟨v, hv⟩
    refine hno b ?_ _ (List.mem_of_getElem? hj) ⟨v, [b] ++ v, [], by simp, .tuple ?_, h0⟩
    · have hlt := (List.getElem?_eq_some_iff.1 hb).1
      refine ⟨c.input.drop (c.offset + 1), ?_⟩
      rw [List.drop_eq_getElem_cons hlt, (List.getElem?_eq_some_iff.1 hb).2]
      rfl
    · have := Words.cons hv (.cons hw .nil)
      simpa using this
  · obtain ⟨v, hv⟩ := plain_word hm hpl
    exact absurd (hor j _ hj ⟨v, v, [], by simp, hv, h0⟩).symm hij

theorem sequence_done {next : Next} (hd : ∀ u, Follow m next u ↔ u = []) (u : List UInt8) : Follow m (.sequence [] next) u ↔ u = [] := by
  constructor
  · rintro ⟨x, y, rfl, hx, hy⟩
    cases hx
    exact (hd _).1 hy
  · rintro rfl
    exact ⟨[], [], rfl, .nil, (hd _).2 rfl⟩

theorem last_field {R : CRel} {p : Decoder → ReadCtxt → Outcome DecodeErr Parsed} {f : Format} (fs : List Format) {next : Next}
    {ds : List Decoder} {acc acc' : Decoder.Acc} (hc : CompilesFields R (fs ++ [f]) next ds)
    (h : Decoder.foldItems p ds acc = .ok acc') :
    ∃ d c w, Compiles R f (.sequence [] next) d ∧ p d c = .ok w ∧ acc'.value.2 = w.value.2 := by
  induction fs generalizing ds acc with
  | nil =>
    cases hc with
    | fcons h1 h2 =>
      cases h2
      obtain ⟨w, h3, h⟩ := Outcome.bind_eq_ok.1 h
      cases h
      exact ⟨_, _, _, h1, h3, rfl⟩
  | cons g fs ih =>
    cases hc with
    | fcons h1 h2 =>
      obtain ⟨w, h3, h⟩ := Outcome.bind_eq_ok.1 h
      exact ih h2 h

theorem last_plain {k : Nat} {a : Bool} {f : Format} (fs : List Format) (h : Format.FieldsPlain m E k a (fs ++ [f])) :
    f.Plain m E k a := by
  induction fs with
  | nil => exact h.1
  | cons g fs ih => exact ih h.2

section
variable {o : BuildOpts} {M : List ((Nat × Next) × Nat)} {env : Env} (hm : m.Plain E) (ho : o.ord.Valid)
  (hM : ∀ level next k, ((level, next), k) ∈ M → ∃ it d, m.items[level]? = some it ∧ env.program[k]? = some d ∧
    Compiles (.of m o M) it.format next d)
include hm ho hM

theorem parse_stops {f : Format} (he : EndsIn m g f) : ∀ (a : Bool) (next : Next) (d : Decoder) (n : Nat) (s : Scope Decoder) (c : ReadCtxt)
    (w : Parsed) (b : UInt8), f.Plain m E m.items.length a → (∀ u, Follow m next u ↔ u = []) → next.Plain m E → Compiles (.of m o M) f next d →
    Decoder.parse env n d s c = .ok w → w.value.2.input[w.value.2.offset]? = some b → ¬ Viable (Word m g) [b] := by
  induction he with
  | repeat_ =>
    intro a next d n s c w b hf hd hn hc h hb
    cases n with
    | zero => cases h
    | succ n =>
      cases hc with
      | repeat_ _ _ ht =>
        obtain ⟨acc, h1, h⟩ := Outcome.bind_eq_ok.1 h
        cases h
        obtain ⟨i, hi⟩ := while_stops h1
        have hlt : i + 1 < 2 := by
          obtain ⟨f, u, hf, _⟩ := C13_selected m o.ord ho o.fuel _ next _ ht _ _ hi
          exact (List.getElem?_eq_some_iff.1 hf).1
        obtain rfl : i = 0 := by omega
        exact tree_stops hm ho hd hn hf (i := 1) (j := 0) (by simp) rfl rfl (by decide) ht hi hb
  | repeat1 =>
    intro a next d n s c w b hf hd hn hc h hb
    cases n with
    | zero => cases h
    | succ n =>
      cases hc with
      | repeat1 _ _ ht =>
        obtain ⟨acc, h1, h⟩ := Outcome.bind_eq_ok.1 h
        cases h
        exact tree_stops hm ho hd hn hf (i := 0) (j := 1) (by simp) rfl rfl (by decide) ht (until_stops h1) hb
  | @item level args views it hi _ ih =>
    intro a next d n s c w b hf hd hn hc h hb
    cases n with
    | zero => cases h
    | succ n =>
      cases hc with
      | @itemVar _ _ _ it' _ dep k h1 h2 h3 =>
        rw [show m.items[level]? = some it' from h1] at hi
        cases hi
        obtain ⟨it'', d, h4, h5, h6⟩ := hM _ _ _ h3
        rw [show m.items[level]? = some it from h1] at h4
        cases h4
        obtain ⟨es, _, h⟩ := Outcome.bind_eq_ok.1 h
        obtain ⟨vs, _, h⟩ := Outcome.bind_eq_ok.1 h
        obtain ⟨d', h7, h⟩ := Outcome.bind_eq_ok.1 h
        rw [h5] at h7
        cases h7
        have hlt := (List.getElem?_eq_some_iff.1 h1).1
        refine ih (E level) (if dep then next else .empty) _ n _ c w b ((hm level it h1).mono (Nat.le_of_lt hlt) id) ?_ ?_ h6 h hb
        · split
          · exact hd
          · exact fun _ => Iff.rfl
        · split
          · exact hn
          · trivial
  | variant _ ih =>
    intro a next d n s c w b hf hd hn hc h hb
    cases n with
    | zero => cases h
    | succ n =>
      cases hc with
      | variant hc =>
        obtain ⟨w', h1, h⟩ := Outcome.bind_eq_ok.1 h
        cases h
        exact ih a next _ n _ c w' b hf hd hn hc h1 hb
  | hint _ ih =>
    intro a next d n s c w b hf hd hn hc h hb
    cases hc with
    | hint hc => exact ih a next _ n _ c w b hf hd hn hc h hb
  | map _ ih =>
    intro a next d n s c w b hf hd hn hc h hb
    cases n with
    | zero => cases h
    | succ n =>
      cases hc with
      | map hc =>
        obtain ⟨w', h1, h⟩ := Outcome.bind_eq_ok.1 h
        obtain ⟨v, _, h⟩ := Outcome.bind_eq_ok.1 h
        cases h
        exact ih a next _ n _ c w' b hf hd hn hc h1 hb
  | let_ _ ih =>
    intro a next d n s c w b hf hd hn hc h hb
    cases n with
    | zero => cases h
    | succ n =>
      cases hc with
      | let_ hc =>
        obtain ⟨v, _, h⟩ := Outcome.bind_eq_ok.1 h
        exact ih a next _ n _ c w b hf hd hn hc h hb
  | letView _ ih =>
    intro a next d n s c w b hf hd hn hc h hb
    cases n with
    | zero => cases h
    | succ n =>
      cases hc with
      | letView hc => exact ih a next _ n _ c w b hf hd hn hc h hb
  | liftedSome _ ih =>
    intro a next d n s c w b hf hd hn hc h hb
    cases n with
    | zero => cases h
    | succ n =>
      cases hc with
      | liftedSome hc =>
        obtain ⟨w', h1, h⟩ := Outcome.bind_eq_ok.1 h
        cases h
        exact ih a next _ n _ c w' b hf hd hn hc h1 hb
  | letFormat _ ih =>
    intro a next d n s c w b hf hd hn hc h hb
    cases n with
    | zero => cases h
    | succ n =>
      cases hc with
      | letFormat _ hc =>
        obtain ⟨w', h1, h⟩ := Outcome.bind_eq_ok.1 h
        obtain ⟨w'', h2, h⟩ := Outcome.bind_eq_ok.1 h
        cases h
        exact ih a next _ n _ _ w'' b hf.2 hd hn hc h2 hb
  | monadSeq _ ih =>
    intro a next d n s c w b hf hd hn hc h hb
    cases n with
    | zero => cases h
    | succ n =>
      cases hc with
      | monadSeq _ hc =>
        obtain ⟨w', h1, h⟩ := Outcome.bind_eq_ok.1 h
        obtain ⟨w'', h2, h⟩ := Outcome.bind_eq_ok.1 h
        cases h
        exact ih a next _ n _ _ w'' b hf.2 hd hn hc h2 hb
  | letCompute _ ih =>
    intro a next d n s c w b hf hd hn hc h hb
    cases n with
    | zero => cases h
    | succ n =>
      cases hc with
      | letFormat hc he =>
        obtain ⟨w', h1, h⟩ := Outcome.bind_eq_ok.1 h
        obtain ⟨w'', h2, h⟩ := Outcome.bind_eq_ok.1 h
        cases h
        have hw : w''.value.2 = w'.value.2 := by
          cases he
          cases n with
          | zero => cases h2
          | succ n =>
            obtain ⟨v, _, h2⟩ := Outcome.bind_eq_ok.1 h2
            cases h2
            rfl
        refine ih false (.cat (.compute _) next) _ n _ c w' b hf.1 ?_ ⟨trivial, hn⟩ hc h1 (by rw [← hw]; exact hb)
        intro u
        constructor
        · rintro ⟨x, y, rfl, hx, hy⟩
          cases hx
          exact (hd _).1 hy
        · rintro rfl
          exact ⟨[], [], rfl, .compute, (hd _).2 rfl⟩
  | tuple _ ih =>
    intro a next d n s c w b hf hd hn hc h hb
    cases n with
    | zero => cases h
    | succ n =>
      cases hc with
      | tuple hc =>
        obtain ⟨acc, h1, h⟩ := Outcome.bind_eq_ok.1 h
        cases h
        obtain ⟨d, c', w', h2, h3, h4⟩ := last_field _ hc h1
        simp only [WithErr.map] at hb
        rw [h4] at hb
        exact ih a (.sequence [] next) _ n _ _ w' b (last_plain _ hf) (sequence_done hd) ⟨trivial, hn⟩ h2 h3 hb
  | sequence _ ih =>
    intro a next d n s c w b hf hd hn hc h hb
    cases n with
    | zero => cases h
    | succ n =>
      cases hc with
      | sequence hc =>
        obtain ⟨acc, h1, h⟩ := Outcome.bind_eq_ok.1 h
        cases h
        obtain ⟨d, c', w', h2, h3, h4⟩ := last_field _ hc h1
        simp only [WithErr.map] at hb
        rw [h4] at hb
        exact ih a (.sequence [] next) _ n _ _ w' b (last_plain _ hf) (sequence_done hd) ⟨trivial, hn⟩ h2 h3 hb
end

end Munch

open Grammar Compiler

/-- If a plain format ends in a repetition and the decoder compiled from it succeeds, the repetition has not stopped too
early: the byte after the part that was taken does not begin a word of the repeated format. -/
theorem C12_munch [DecidableEq Next] (m : Module) (E : Nat → Bool) (hm : m.Plain E) (o : BuildOpts) (ho : o.ord.Valid) (cfuel : Nat)
    (f g : Format) (hf : f.Plain m E m.items.length true) (he : EndsIn m g f) (prog : List Decoder)
    (hp : compileProgram m o cfuel f = .ok prog) (fuel : Nat) (c : ReadCtxt) (w : Parsed)
    (h : Decoder.run (env o prog) fuel c = .ok w) (b : UInt8) (hb : w.value.2.input[w.value.2.offset]? = some b) :
    ¬ Viable (Word m g) [b] := by
  obtain ⟨M, ⟨d, hd, hc⟩, hM⟩ := compileProgram_spec m o cfuel f prog hp
  obtain ⟨d', hd', h⟩ := Outcome.bind_eq_ok.1 h
  have hd' := Outcome.ofPanicky_eq_ok.1 hd'
  change Panicky.unwrap prog[0]? = _ at hd'
  rw [hd] at hd'
  cases hd'
  exact Munch.parse_stops (env := env o prog) hm ho hM he true .empty d fuel _ c w b hf (fun _ => Iff.rfl) trivial hc h hb

/-- a sequence of `a` or `bc`, in the module that has `bc` as its item, and a run that stops before a `c` -/
private def demoModule : Module := ⟨[⟨[], [], .tuple [.byte (ByteSet.fromIter [98]), .byte (ByteSet.fromIter [99])]⟩]⟩
private def demoBody : Format := .union [.byte (ByteSet.fromIter [97]), .itemVar 0 [] []]
private def demo : Format := .tuple [.byte (ByteSet.fromIter [7]), .repeat_ demoBody]

example : ∃ (_ : DecidableEq Next) (prog : List Decoder) (w : Parsed), compileProgram demoModule ⟨fun _ l => l, 20⟩ 20 demo = .ok prog ∧
    Decoder.run (env ⟨fun _ l => l, 20⟩ prog) 20 ⟨[7, 98, 99, 97, 99], 0⟩ = .ok w ∧
    w.value.2 = ⟨[7, 98, 99, 97, 99], 4⟩ :=
  ⟨fun _ _ => Classical.propDecidable _, _, _, rfl, rfl, rfl⟩

example : EndsIn demoModule demoBody demo := .tuple (fs := [_]) .repeat_

example : demoModule.Plain (fun _ => false) ∧ demo.Plain demoModule (fun _ => false) demoModule.items.length true := by
  have b1 : ∀ x : UInt8, ∃ b, (ByteSet.fromIter [x]).contains b = true :=
    fun x => ⟨x, (ByteSet.C01_contains_fromIter _ _).2 (.head _)⟩
  constructor
  · intro i it h
    match i with
    | 0 => cases h; simp only [Format.Plain, Format.FieldsPlain]; exact ⟨b1 _, b1 _, trivial⟩
    | i + 1 => simp [demoModule] at h
  · simp only [demo, demoBody, Format.Plain, Format.FieldsPlain, Format.EachPlain]
    exact ⟨b1 _, ⟨by simp, b1 _, by decide, trivial⟩, trivial⟩

end Doodle
