import Verif.Lemmas.Complete

/-!
C12: a compiled alternation finds the parse that the declarative grammar derives.

The claim as it is stated in `properties.jsonl` does not hold of the code: see `C12_greedy_refuted` and
`C12_item_refuted`.  What holds is stated first.  `Word`, `Follow`, `Plain` are in `Verif.Spec.Words`,
`Regular` in `Verif.Spec.Regular`, derivations (`Parses`) in `Verif.Spec.Grammar`.
-/

namespace Doodle

open Grammar Compiler Tree

/-! ## The choice -/

/-- When the whole remaining input is a word of one alternative and of what follows, the tree selects that
alternative. -/
theorem C12_selects_whole (m : Module) (E : Nat → Bool) (hm : m.Plain E) (ord : HashOrder) (ho : ord.Valid) (n : Nat)
    (fs : List Format) (next : Next) (hf : ∀ f ∈ fs, f.Plain m E m.items.length next.isDone) (hn : next.Plain m E)
    (t : MatchTree) (ht : MatchTree.build m ord n fs next = .ok (some t)) (i : Nat) (f : Format) (hi : fs[i]? = some f)
    (c : ReadCtxt) (hw : Cat (Word m f) (Follow m next) (c.input.drop c.offset)) : t.matches c = some i := by
  unfold MatchTree.matches
  have := grow_complete (follow_sem hm n) ho 80 _ _ t ht (initial_plain hf hn) (c.input.drop c.offset) [] i _
    (mem_initial0.2 ⟨f, hi, rfl⟩) hw (fun p hp hpre => absurd (List.prefix_nil.1 hpre) hp)
  simpa using this

/-- When the remaining input begins with a word of one alternative and of what follows, the tree selects that
alternative, unless the next byte lets another alternative begin with more of the input. -/
theorem C12_selects_partial (m : Module) (E : Nat → Bool) (hm : m.Plain E) (ord : HashOrder) (ho : ord.Valid) (n : Nat)
    (fs : List Format) (next : Next) (hf : ∀ f ∈ fs, f.Plain m E m.items.length next.isDone) (hn : next.Plain m E)
    (t : MatchTree) (ht : MatchTree.build m ord n fs next = .ok (some t)) (i : Nat) (f : Format) (hi : fs[i]? = some f)
    (c : ReadCtxt) (u rest : List UInt8) (hr : c.input.drop c.offset = u ++ rest)
    (hw : Cat (Word m f) (Follow m next) u)
    (hno : ∀ b, rest.head? = some b → ∀ j g, fs[j]? = some g → j ≠ i →
      ¬ Viable (Cat (Word m g) (Follow m next)) (u ++ [b])) : t.matches c = some i := by
  unfold MatchTree.matches
  rw [hr]
  refine grow_complete (follow_sem hm n) ho 80 _ _ t ht (initial_plain hf hn) u rest i _
    (mem_initial0.2 ⟨f, hi, rfl⟩) hw ?_
  rintro p hp ⟨r, rfl⟩ ⟨j, x⟩ he hj ⟨z, hz⟩
  obtain ⟨g, hg, rfl⟩ := mem_initial0.1 he
  cases p with
  | nil => exact hp rfl
  | cons b p =>
    refine hno b rfl j g hg hj ⟨p ++ z, ?_⟩
    have hz : Follow m (.cat g next) (u ++ [b] ++ (p ++ z)) := by simpa using hz
    exact hz

/-! ## The whole decoder -/

section
variable [DecidableEq Next] (m : Module) (E : Nat → Bool) (o : BuildOpts) (tr : Bool) (hm : m.Plain E)
  (hr : m.Regular E o tr) (ho : o.ord.Valid) (cfuel : Nat) (f : Format) (hf : f.Plain m E m.items.length true)
  (hg : f.Regular m E o tr) (prog : List Decoder) (hp : compileProgram m o cfuel f = .ok prog)

include hm hr ho hf hg hp

theorem run_found {c c' : ReadCtxt} {v : Value} {k : Nat} (h : Parses m never f .empty c v c' k) (hk : tr = true ∨ k = 0)
    {u : List UInt8} (hu : Fits (Word m f) (Follow m .empty) (c.input.drop c.offset) u)
    (he : c' = ⟨c.input, c.offset + u.length⟩) :
    ∃ N w, w.value = (v, c') ∧ w.errs.length = k ∧ ∀ n, N ≤ n → Decoder.run (env o prog) n c = .ok w := by
  obtain ⟨M, ⟨d, hd, hc⟩, hM⟩ := compileProgram_spec m o cfuel f prog hp
  have S : Setup m E o tr M (env o prog) := ⟨hm, hr, ho, fun level next k it hi hk => by
    obtain ⟨it', d, h1, h2, h3⟩ := hM level next k hk
    rw [hi] at h1
    cases h1
    exact ⟨d, h2, h3⟩⟩
  obtain ⟨N, w, h1, h2, h3⟩ := h.found S (R := fun _ _ => True) (next := .empty) hf hg trivial hc .empty hk hu he
  refine ⟨N, w, h2, h3, fun n hn => ?_⟩
  exact Outcome.bind_eq_ok.2 ⟨d, Outcome.ofPanicky_eq_ok.2 (Compiler.unwrap_eq_ok.2 hd), h1 n hn⟩

/-- A derivation that covers the whole input is found: the compiled decoder does not fail or loop, and returns
the derived value with as many logged errors as the derivation has tolerated deviations.  (Bytes left over in a
`DecodeBytes` are such deviations; derivations without deviations need no condition on the bodies of
`DecodeBytes` beyond being plain: `tr = false`.) -/
theorem C12_whole_partial (c c' : ReadCtxt) (v : Value) (k : Nat) (h : Parses m (fun _ _ _ => False) f .empty c v c' k)
    (hk : tr = true ∨ k = 0) (hw : c'.input.length ≤ c'.offset) :
    ∃ N w, w.value = (v, c') ∧ w.errs.length = k ∧ ∀ n, N ≤ n → Decoder.run (env o prog) n c = .ok w := by
  obtain ⟨u, r, h1, rfl, h3⟩ := h.covered hm hr hf hg
  refine run_found m E o tr hm hr ho cfuel f hf hg prog hp h hk ?_ rfl
  have hr0 : r = [] := by
    have := congrArg List.length h1
    simp only [List.length_append, List.length_drop] at this
    simp only [] at hw
    exact List.length_eq_zero_iff.1 (by omega)
  subst hr0
  rw [h1, List.append_nil]
  exact Fits.whole h3 rfl

/-- A derivation that covers a beginning of the input is found, if with the next byte no word of the format is
possible any more. -/
theorem C12_complete_partial (c c' : ReadCtxt) (v : Value) (k : Nat) (h : Parses m (fun _ _ _ => False) f .empty c v c' k)
    (hk : tr = true ∨ k = 0)
    (hmax : ∀ b, c'.input[c'.offset]? = some b →
      ¬ Viable (Word m f) ((c.input.drop c.offset).take (c'.offset - c.offset) ++ [b])) :
    ∃ N w, w.value = (v, c') ∧ w.errs.length = k ∧ ∀ n, N ≤ n → Decoder.run (env o prog) n c = .ok w := by
  obtain ⟨u, r, h1, rfl, h3⟩ := h.covered hm hr hf hg
  refine run_found m E o tr hm hr ho cfuel f hf hg prog hp h hk ?_ rfl
  rw [h1]
  refine Fits.longest h3 (fun _ => Iff.rfl) ?_
  rintro p hp' ⟨q, hq⟩ ⟨z, hz⟩
  cases p with
  | nil => exact hp' rfl
  | cons b p =>
    refine hmax b ?_ ⟨p ++ z, ?_⟩
    · simp only []
      rw [← List.getElem?_drop, h1, ← hq, List.getElem?_append_right (Nat.le_refl _)]
      simp
    · have : c.offset + u.length - c.offset = u.length := by omega
      simp only [this]
      rw [h1, List.take_left]
      simpa using hz

/-- All derivations that cover the whole input derive the same value. -/
theorem C12_unique_partial (c c1 c2 : ReadCtxt) (v1 v2 : Value) (k1 k2 : Nat)
    (h1 : Parses m (fun _ _ _ => False) f .empty c v1 c1 k1) (h2 : Parses m (fun _ _ _ => False) f .empty c v2 c2 k2)
    (hk1 : tr = true ∨ k1 = 0) (hk2 : tr = true ∨ k2 = 0)
    (hw1 : c1.input.length ≤ c1.offset) (hw2 : c2.input.length ≤ c2.offset) : v1 = v2 ∧ c1 = c2 ∧ k1 = k2 := by
  obtain ⟨N, w, e1, e2, e3⟩ := C12_whole_partial m E o tr hm hr ho cfuel f hf hg prog hp c c1 v1 k1 h1 hk1 hw1
  obtain ⟨N', w', f1, f2, f3⟩ := C12_whole_partial m E o tr hm hr ho cfuel f hf hg prog hp c c2 v2 k2 h2 hk2 hw2
  have := (e3 (max N N') (by omega)).symm.trans (f3 (max N N') (by omega))
  cases this
  rw [e1] at f1
  cases f1
  exact ⟨rfl, rfl, e2.symm.trans f2⟩

end

/-! ## Cases that meet the hypotheses -/

private def a : Format := .byte (ByteSet.fromIter [97])
private def b : Format := .byte (ByteSet.fromIter [98])
private def c : Format := .byte (ByteSet.fromIter [99])
private def opts : BuildOpts := ⟨fun _ l => l, 20⟩
private def E0 : Nat → Bool := fun _ => false

private theorem plain_a (m : Module) (k : Nat) (l : Bool) : a.Plain m E0 k l := by
  simp only [a, Format.Plain]; exact ⟨97, by decide +kernel⟩
private theorem plain_b (m : Module) (k : Nat) (l : Bool) : b.Plain m E0 k l := by
  simp only [b, Format.Plain]; exact ⟨98, by decide +kernel⟩
private theorem plain_c (m : Module) (k : Nat) (l : Bool) : c.Plain m E0 k l := by
  simp only [c, Format.Plain]; exact ⟨99, by decide +kernel⟩

/-- item 0 is `(ab | c)*`; the format is that item, followed by `a`, then an optional `c`.  The item depends on
what follows: the loop has to see `b` after `a`. -/
private def loops : Module := ⟨[⟨[], [], .repeat_ (.union [.tuple [a, b], c])⟩]⟩
private def demo : Format := .tuple [.itemVar 0 [] [], a, .union [Format.EMPTY, c]]

private theorem demo_plain : Module.Plain loops E0 ∧ demo.Plain loops E0 loops.items.length true ∧
    Module.Regular loops E0 opts true ∧ demo.Regular loops E0 opts true := by
  refine ⟨?_, ?_, ?_, ?_⟩
  · intro i it h
    match i with
    | 0 =>
      cases h
      simp only [Format.Plain, Format.EachPlain, Format.FieldsPlain]
      exact ⟨by simp, ⟨plain_a _ _ _, plain_b _ _ _, trivial⟩, plain_c _ _ _, trivial⟩
    | i + 1 => simp [loops] at h
  · simp only [demo, Format.Plain, Format.FieldsPlain, Format.EachPlain, Format.EMPTY, E0]
    exact ⟨⟨by decide, by decide, nofun⟩, plain_a _ _ _, ⟨by simp, trivial, plain_c _ _ _, trivial⟩, trivial⟩
  · intro i it h
    match i with
    | 0 =>
      cases h
      simp [Format.Regular, Format.Each, Format.EachOf, Format.RegularHere, a, b, c]
    | i + 1 => simp [loops] at h
  · simp only [Format.Regular, demo, Format.Each, Format.EachOf, Format.RegularHere, a, c, Format.EMPTY]
    refine ⟨trivial, ⟨by simp, ?_⟩, trivial, ⟨trivial, ⟨trivial, trivial⟩, trivial, trivial⟩, trivial⟩
    intro it h
    cases h
    exact .inl rfl

/-- On `abca` the hypotheses of `C12_whole_partial` are met. -/
example : ∃ (_ : DecidableEq Next) (prog : List Decoder) (v : Value),
    compileProgram loops opts 5 demo = .ok prog ∧ opts.ord.Valid ∧
    Parses loops (fun _ _ _ => False) demo .empty ⟨[97, 98, 99, 97], 0⟩ v ⟨[97, 98, 99, 97], 4⟩ 0 := by
  refine ⟨fun _ _ => Classical.propDecidable _, _, .tuple [.seq (.strict [.branch 0 (.tuple [.u8 97, .u8 98]), .branch 1 (.u8 99)]),
    .u8 97, .branch 0 (.tuple [])], rfl, fun _ _ _ => Iff.rfl, ?_⟩
  have h1 : ParsesMany loops never (.union [.tuple [a, b], c]) (.multi [] .empty) ⟨[97, 98, 99, 97], 0⟩
      [.branch 0 (.tuple [.u8 97, .u8 98]), .branch 1 (.u8 99)] ⟨[97, 98, 99, 97], 3⟩ 0 :=
    .mcons (k := 0) (k' := 0) (.union (i := 0) rfl (.tuple (.fcons (k := 0) (k' := 0) (.byte rfl (by decide +kernel))
      (.fcons (k := 0) (k' := 0) (.byte rfl (by decide +kernel)) .fnil))))
      (.mcons (k := 0) (k' := 0) (.union (i := 1) rfl (.byte rfl (by decide +kernel))) .mnil)
  exact .tuple (.fcons (k := 0) (k' := 0) (.itemVar rfl .nil .nil (.repeat_ h1))
    (.fcons (k := 0) (k' := 0) (.byte rfl (by decide +kernel)) (.fcons (k := 0) (k' := 0) (.union (i := 0) rfl (.tuple .fnil)) .fnil)))

/-- `c*` on `cca`: after `cc`, the byte `a` allows no word. -/
example : ∃ (_ : DecidableEq Next) (prog : List Decoder) (v : Value),
    compileProgram .empty opts 5 (.repeat_ c) = .ok prog ∧
    Parses .empty (fun _ _ _ => False) (.repeat_ c) .empty ⟨[99, 99, 97], 0⟩ v ⟨[99, 99, 97], 2⟩ 0 ∧
    ∀ b : UInt8, ([99, 99, 97] : List UInt8)[2]? = some b → ¬ Viable (Word .empty (.repeat_ c)) (([99, 99, 97].drop 0).take (2 - 0) ++ [b]) := by
  refine ⟨fun _ _ => Classical.propDecidable _, _, _, rfl, .repeat_ (.mcons (k := 0) (k' := 0) (.byte rfl (by decide +kernel))
    (.mcons (k := 0) (k' := 0) (.byte rfl (by decide +kernel)) .mnil)), ?_⟩
  rintro b hb ⟨z, hz⟩
  cases hb
  have key : ∀ {f n u}, Power .empty f n u → f = c → ∀ x ∈ u, x = 99 := by
    intro f n u h
    induction n generalizing u with
    | zero => cases h; simp
    | succ n ih =>
      obtain ⟨x, y, rfl, h1, h2⟩ := power_succ.1 h
      rintro rfl z hz
      rcases List.mem_append.1 hz with hz | hz
      · cases h1 with
        | @byte bs b' hb =>
          simp only [List.mem_singleton] at hz
          subst hz
          simpa using (ByteSet.C01_contains_fromIter _ _).1 hb
      · exact ih h2 rfl z hz
  cases hz with
  | repeat_ h => exact absurd (key h rfl 97 (by simp)) (by decide)

/-! ## What does not hold -/

/-- `Union [EMPTY, ab]` -/
private def greedy : Format := .union [Format.EMPTY, .tuple [a, b]]

/-- The claim does not hold for every input: on `ac` the first alternative of `Union [EMPTY, Tuple [a, b]]` has a
derivation (of nothing), nothing follows, and yet the compiled decoder fails: it has committed to the second
alternative when it saw `a`. -/
theorem C12_greedy_refuted :
    ∃ (_ : DecidableEq Next) (f : Format) (o : BuildOpts) (prog : List Decoder) (c c' : ReadCtxt) (v : Value) (e : DecodeErr),
      compileProgram .empty o 5 f = .ok prog ∧ o.ord.Valid ∧ f.Plain .empty (fun _ => false) 0 true ∧
      f.Regular .empty (fun _ => false) o true ∧
      Parses .empty (fun _ _ _ => False) f .empty c v c' 0 ∧ Decoder.run (env o prog) 20 c = .err e := by
  refine ⟨fun _ _ => Classical.propDecidable _, greedy, opts, _, ⟨[97, 99], 0⟩, ⟨[97, 99], 0⟩, .branch 0 (.tuple []), _,
    rfl, fun _ _ _ => Iff.rfl, ?_, ?_, .union (i := 0) rfl (.tuple .fnil), rfl⟩
  · simp only [greedy, Format.Plain, Format.EachPlain, Format.EMPTY, Format.FieldsPlain]
    exact ⟨by simp, trivial, ⟨plain_a _ _ _, plain_b _ _ _, trivial⟩, trivial⟩
  · simp [Format.Regular, greedy, Format.Each, Format.EachOf, Format.RegularHere, a, b, Format.EMPTY]

private def greedyItem : Module := ⟨[⟨[], [], greedy⟩]⟩

/-- Not even a derivation of the whole input is found in general: when the alternation is an item of the module,
it is compiled without regard to what follows, because its tree can be built without.  `Tuple [item, a, c]` on `ac`
fails, although with the alternation written in place of the item the same input is parsed. -/
theorem C12_item_refuted :
    ∃ (_ : DecidableEq Next) (m : Module) (it : Item) (o : BuildOpts) (prog prog' : List Decoder) (c c' : ReadCtxt)
      (v : Value) (e : DecodeErr) (w : Parsed),
      m.items[0]? = some it ∧ o.ord.Valid ∧
      compileProgram m o 5 (.tuple [.itemVar 0 [] [], .byte (ByteSet.fromIter [97]), .byte (ByteSet.fromIter [99])]) = .ok prog ∧
      compileProgram m o 5 (.tuple [it.format, .byte (ByteSet.fromIter [97]), .byte (ByteSet.fromIter [99])]) = .ok prog' ∧
      Parses m (fun _ _ _ => False) (.tuple [.itemVar 0 [] [], .byte (ByteSet.fromIter [97]), .byte (ByteSet.fromIter [99])])
        .empty c v c' 0 ∧ c'.offset = c'.input.length ∧
      Decoder.run (env o prog) 20 c = .err e ∧ Decoder.run (env o prog') 20 c = .ok w ∧ w.value = (v, c') := by
  refine ⟨fun _ _ => Classical.propDecidable _, greedyItem, ⟨[], [], greedy⟩, opts, _, _, ⟨[97, 99], 0⟩, ⟨[97, 99], 2⟩,
    .tuple [.branch 0 (.tuple []), .u8 97, .u8 99], _, _, rfl, fun _ _ _ => Iff.rfl, rfl, rfl, ?_, rfl, rfl, rfl, rfl⟩
  exact .tuple (.fcons (k := 0) (k' := 0) (.itemVar rfl .nil .nil (.union (i := 0) rfl (.tuple .fnil)))
    (.fcons (k := 0) (k' := 0) (.byte rfl (by decide +kernel)) (.fcons (k := 0) (k' := 0) (.byte rfl (by decide +kernel)) .fnil)))

end Doodle
