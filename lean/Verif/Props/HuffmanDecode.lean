import Verif.Lemmas.HuffmanDecode
import Verif.Props.Complete
import Verif.Props.Lookahead
import Verif.Props.Huffman

/-! C31: the decoder the interpreter compiles from a Huffman code and the one of the generated code read the same
symbols. -/

namespace Doodle
namespace Huffman

open HuffmanTree Compiler

private theorem plain_empty : Module.Plain .empty (fun _ => false) := fun i it h => by simp [Module.empty] at h

private theorem pair_ne {α : Type} {R : α → α → Prop} (hs : ∀ a b, R a b → R b a) {l : List α} (hp : l.Pairwise R)
    {i j : Nat} {a b : α} (hi : l[i]? = some a) (hj : l[j]? = some b) (hij : i ≠ j) : R a b := by
  obtain ⟨h1, rfl⟩ := List.getElem?_eq_some_iff.1 hi
  obtain ⟨h2, rfl⟩ := List.getElem?_eq_some_iff.1 hj
  rcases Nat.lt_or_gt_of_ne hij with h | h
  · exact List.pairwise_iff_getElem.1 hp i j h1 h2 h
  · exact hs _ _ (List.pairwise_iff_getElem.1 hp j i h2 h1 h)

private theorem codes_of {L : List Nat} {values : Option (List Nat)} {L' : List Nat} (hr : reorder L values = .ok L')
    (hs : Small L') {g : Format} (hg : Decoder.huffmanFormat L values = .ok g) :
    g = .union ((canonTable L').map Decoder.huffmanBranch) := by
  unfold Decoder.huffmanFormat interpHuffman at hg
  rw [hr] at hg
  simp only [C30_codes_canonical L' hs] at hg
  cases hg
  rfl

private theorem codes_short {L' : List Nat} (hs : Small L') : ∀ e ∈ canonTable L', e.1.length < 80 := by
  rintro ⟨bs, n⟩ he
  obtain ⟨l, g, _, rfl⟩ := (mem_canonTable L' bs n).1 he
  have := hs.2.2 l (List.mem_of_getElem? g)
  simp only [bitsOf_length]
  omega

/-- The interpreter's compiler builds a decoder from a table of code lengths, or refuses it; it refuses it exactly if
two symbols have the same code word. -/
theorem C31_interpreter_refuses_iff [DecidableEq Next] (o : BuildOpts) (ho : o.ord.Valid) (hf : 6 ≤ o.fuel)
    (L : List Nat) (values : Option (List Nat)) (L' : List Nat) (hr : reorder L values = .ok L') (hs : Small L')
    (g : Format) (hg : Decoder.huffmanFormat L values = .ok g) :
    ∃ r, compileOne o g = .ok r ∧ (r = none ↔ ∃ m n l, m ≠ n ∧ l ≠ 0 ∧ L'[m]? = some l ∧ L'[n]? = some l ∧
      bitsOf l (canonCode L' m l) = bitsOf l (canonCode L' n l)) := by
  cases codes_of hr hs hg
  obtain ⟨r, hb⟩ := build_ok ho hf (canonTable L')
  refine ⟨_, compile_eq _ r hb, ?_⟩
  have hiff := C13_words_built_iff .empty (fun _ => false) plain_empty o.ord ho o.fuel _ .empty (branch_plain _)
    trivial r hb
  have hnone : (r.map fun t => Decoder.branch t ((canonTable L').map codeDecoder)) = none ↔ ¬ ∃ t, r = some t := by
    cases r <;> simp
  rw [hnone, hiff]
  constructor
  · intro h
    simp only [Classical.not_forall] at h
    obtain ⟨i, j, f, g, hi, hj, hij, u, hu⟩ := h
    rw [List.getElem?_map] at hi hj
    obtain ⟨⟨b1, n1⟩, h1, rfl⟩ := Option.map_eq_some_iff.1 hi
    obtain ⟨⟨b2, n2⟩, h2, rfl⟩ := Option.map_eq_some_iff.1 hj
    have hne : n1 ≠ n2 := pair_ne (R := fun e f : List UInt8 × Nat => e.2 ≠ f.2) (fun _ _ h => h.symm)
      (canonTable_symbols L') h1 h2 hij
    simp only [word_branch, viable_branch] at hu
    have : u = b1 ∧ u = b2 := by
      refine Classical.byContradiction fun hc => ?_
      refine hu ⟨hc, fun hl hv => ?_⟩
      have h3 := hv.1.length_le
      have := codes_short hs _ (List.mem_of_getElem? h1)
      simp only at this
      omega
    obtain ⟨rfl, hbb⟩ := this
    obtain ⟨l1, g1, z1, e1⟩ := (mem_canonTable L' _ n1).1 (List.mem_of_getElem? h1)
    obtain ⟨l2, g2, z2, e2⟩ := (mem_canonTable L' _ n2).1 (List.mem_of_getElem? h2)
    have hl : l1 = l2 := by
      have h3 := congrArg List.length e1
      have h4 := congrArg List.length e2
      rw [← hbb] at h4
      simp only [bitsOf_length] at h3 h4
      omega
    subst hl
    exact ⟨n1, n2, l1, hne, z1, g1, g2, by rw [← e1, ← e2, hbb]⟩
  · rintro ⟨m, n, l, hmn, hl, hm, hn, he⟩ hall
    obtain ⟨i, hi⟩ := List.getElem?_of_mem ((mem_canonTable L' _ m).2 ⟨l, hm, hl, rfl⟩)
    obtain ⟨j, hj⟩ := List.getElem?_of_mem ((mem_canonTable L' _ n).2 ⟨l, hn, hl, rfl⟩)
    have hij : i ≠ j := by
      rintro rfl
      rw [hi] at hj
      simp only [Option.some.injEq, Prod.mk.injEq] at hj
      exact hmn hj.2
    have := (hall i j _ _ (by rw [List.getElem?_map, hi]; rfl) (by rw [List.getElem?_map, hj]; rfl) hij
      (bitsOf l (canonCode L' m l))).1
    simp only [word_branch] at this
    exact this ⟨trivial, he⟩

theorem decode_form [DecidableEq Next] (o : BuildOpts) (ho : o.ord.Valid) (hf : 6 ≤ o.fuel)
    (L : List Nat) (values : Option (List Nat)) (L' : List Nat) (hr : reorder L values = .ok L') (hs : Small L')
    (t : Node) (ht : parseHuffman L values = .ok (some t)) (g : Format) (hg : Decoder.huffmanFormat L values = .ok g) :
    ∃ d, compileOne o g = .ok (some d) ∧ ∀ (env : Env) (scope : Scope Decoder) (c : ReadCtxt) (k : Nat), 4 ≤ k →
      (∀ n rest, t.parseOne (c.input.drop c.offset) = .ok n rest → ∃ i v off,
        Decoder.parse env k d scope c = .ok ⟨(.branch i (.mapped v (.num (.fixed .b16) (Fin.ofNat _ n))), ⟨c.input, off⟩), []⟩ ∧
        n < 65536 ∧ off ≤ c.input.length ∧ c.input.drop off = rest) ∧
      ((∀ n rest, t.parseOne (c.input.drop c.offset) ≠ .ok n rest) → ∃ e, Decoder.parse env k d scope c = .err e) := by
  have hmk : makeDecoder L' = .ok (some t) := by
    unfold parseHuffman at ht
    rw [hr] at ht
    exact ht
  have hK : KraftOk 47 L' := (C30_construct L' hs 47 hs.2.2).1.2 ⟨t, hmk⟩
  have hpw := canonTable_pairwise L' 47 hs.2.2 hK
  cases codes_of hr hs hg
  have hsym : ∀ (i j : Nat) (a b : List UInt8 × Nat), (canonTable L')[i]? = some a → (canonTable L')[j]? = some b →
      i ≠ j → ¬ (a.1 <+: b.1 ∨ b.1 <+: a.1) := fun i j a b hi hj hij =>
    pair_ne (R := fun e f : List UInt8 × Nat => ¬ (e.1 <+: f.1 ∨ f.1 <+: e.1)) (fun _ _ h h' => h h'.symm) hpw hi hj hij
  obtain ⟨r, hb⟩ := build_ok ho hf (canonTable L')
  obtain ⟨tree, rfl⟩ := (C13_words_built_iff .empty (fun _ => false) plain_empty o.ord ho o.fuel _ .empty
    (branch_plain _) trivial r hb).2 (by
      intro i j f g hi hj hij u
      rw [List.getElem?_map] at hi hj
      obtain ⟨p, h1, rfl⟩ := Option.map_eq_some_iff.1 hi
      obtain ⟨q, h2, rfl⟩ := Option.map_eq_some_iff.1 hj
      simp only [word_branch, viable_branch]
      refine ⟨?_, fun hl hv => ?_⟩
      · rintro ⟨e1, e2⟩
        exact hsym i j p q h1 h2 hij (.inl (by rw [← e1, ← e2]; exact List.prefix_refl _))
      · have := hv.1.length_le
        have := codes_short hs _ (List.mem_of_getElem? h1)
        omega)
  refine ⟨_, compile_eq _ _ hb, fun env scope c k hk => ?_⟩
  obtain ⟨k, rfl⟩ : ∃ k', k = k' + 4 := ⟨k - 4, by omega⟩
  have hp : Decoder.parse env (k + 4) (.branch tree ((canonTable L').map codeDecoder)) scope c =
      match tree.matches c with
      | none => .err (.noValidBranch c.offset)
      | some index => (do
        let d ← Outcome.ofPanicky (Panicky.unwrap ((canonTable L').map codeDecoder)[index]?)
        let w ← Decoder.parse env (k + 3) d scope c
        .ok (w.map fun r => (.branch index r.1, r.2))) := rfl
  dsimp only
  rw [hp]
  constructor
  · intro n rest hn
    obtain ⟨l, g, z, he⟩ := (C30_decode L' hs t hmk _ _ _).1 hn
    have hmem := (mem_canonTable L' _ n).2 ⟨l, g, z, rfl⟩
    obtain ⟨i, hi⟩ := List.getElem?_of_mem hmem
    have hsel : tree.matches c = some i := by
      refine C12_selects_partial .empty (fun _ => false) plain_empty o.ord ho o.fuel _ .empty (branch_plain _) trivial
        tree hb i _ (by rw [List.getElem?_map, hi]; rfl) c _ rest he (word_branch.2 rfl) ?_
      intro b _ j f hj hji hv
      rw [List.getElem?_map] at hj
      obtain ⟨q, h2, rfl⟩ := Option.map_eq_some_iff.1 hj
      rw [viable_branch] at hv
      exact hsym i j _ q hi h2 hji.symm (.inl ((List.prefix_append _ _).trans hv))
    obtain ⟨vs, hrun⟩ := code_run (env := env) (n := k) (scope := scope) (p := (bitsOf l (canonCode L' n l), n)) he
    refine ⟨i, .tuple vs, c.offset + (bitsOf l (canonCode L' n l)).length, ?_, ?_, ?_, ?_⟩
    · simp only [hsel, List.getElem?_map, hi, Option.map_some, Panicky.unwrap, Outcome.ofPanicky, Outcome.bind_ok, hrun]
      rfl
    · have hlt : n < L'.length := (List.getElem?_eq_some_iff.1 g).1
      have := hs.2.1
      omega
    · have h1 := congrArg List.length he
      simp only [List.length_drop, List.length_append, bitsOf_length] at h1 ⊢
      have : l ≠ 0 := z
      omega
    · rw [← List.drop_drop, he, List.drop_left' rfl]
  · intro hno
    cases hsel : tree.matches c with
    | none => exact ⟨_, rfl⟩
    | some i =>
      obtain ⟨f, u, hf, _⟩ := C13_words_selected .empty (fun _ => false) plain_empty o.ord ho o.fuel _ .empty
        (branch_plain _) trivial tree hb c i hsel
      rw [List.getElem?_map] at hf
      obtain ⟨p, h1, rfl⟩ := Option.map_eq_some_iff.1 hf
      have hnp : ¬ p.1 <+: c.input.drop c.offset := by
        rintro ⟨rest, he⟩
        obtain ⟨l, g, z, e1⟩ := (mem_canonTable L' p.1 p.2).1 (List.mem_of_getElem? h1)
        exact hno p.2 rest ((C30_decode L' hs t hmk _ _ _).2 ⟨l, g, z, by rw [← e1, he]⟩)
      obtain ⟨e, he⟩ := code_err (env := env) (n := k) (scope := scope) hnp
      refine ⟨e, ?_⟩
      simp only [List.getElem?_map, h1, Option.map_some, Panicky.unwrap, Outcome.ofPanicky, Outcome.bind_ok, he]
      rfl

/-- For every table of code lengths the generated code accepts, the interpreter compiles a decoder; and in every
stream the two read the same symbol and leave the same bits, or both fail. -/
theorem C31_decode [DecidableEq Next] (o : BuildOpts) (ho : o.ord.Valid) (hf : 6 ≤ o.fuel)
    (L : List Nat) (values : Option (List Nat)) (L' : List Nat) (hr : reorder L values = .ok L') (hs : Small L')
    (t : Node) (ht : parseHuffman L values = .ok (some t)) (g : Format) (hg : Decoder.huffmanFormat L values = .ok g) :
    ∃ d, compileOne o g = .ok (some d) ∧ ∀ (env : Env) (scope : Scope Decoder) (c : ReadCtxt) (k : Nat), 4 ≤ k →
      (∀ n rest, t.parseOne (c.input.drop c.offset) = .ok n rest → ∃ v x off,
        Decoder.parse env k d scope c = .ok ⟨(v, ⟨c.input, off⟩), []⟩ ∧
        v.coerceMapped = .num (.fixed .b16) x ∧ x.val = n ∧ c.input.drop off = rest) ∧
      ((∀ n rest, t.parseOne (c.input.drop c.offset) ≠ .ok n rest) → ∃ e, Decoder.parse env k d scope c = .err e) := by
  obtain ⟨d, h1, h2⟩ := decode_form o ho hf L values L' hr hs t ht g hg
  refine ⟨d, h1, fun env scope c k hk => ⟨fun n rest hn => ?_, (h2 env scope c k hk).2⟩⟩
  obtain ⟨i, v, off, h3, h4, _, h5⟩ := (h2 env scope c k hk).1 n rest hn
  exact ⟨_, Fin.ofNat _ n, off, h3, rfl, Nat.mod_eq_of_lt h4, h5⟩

/-! ### cases that meet the hypotheses -/

private def order : HashOrder := fun _ l => l

/-- The example of RFC 1951, as a table of lengths and values. -/
example : ∃ t g, reorder [3, 3, 3, 3, 3, 2, 4, 4] none = .ok [3, 3, 3, 3, 3, 2, 4, 4] ∧
    Small [3, 3, 3, 3, 3, 2, 4, 4] ∧ parseHuffman [3, 3, 3, 3, 3, 2, 4, 4] none = .ok (some t) ∧
    Decoder.huffmanFormat [3, 3, 3, 3, 3, 2, 4, 4] none = .ok g ∧ order.Valid ∧
    t.parseOne [1, 1, 1, 0, 0, 1] = .ok 6 [0, 1] :=
  ⟨_, _, rfl, ⟨by simp, by simp, by simp⟩, rfl, rfl, fun _ _ _ => Iff.rfl, rfl⟩

/-- The two do not refuse the same tables. With lengths 1, 1, 2 the generated code refuses the table, since the code
words are 0, 1 and 00; the interpreter compiles a decoder and reads the third symbol from 00. -/
theorem C31_overfull_refuted : ∃ (L : List Nat) (g : Format) (d : Decoder) (o : BuildOpts) (w : Parsed)
    (_ : DecidableEq Next), Small L ∧ o.ord.Valid ∧ parseHuffman L none = .ok none ∧
      Decoder.huffmanFormat L none = .ok g ∧ compileOne o g = .ok (some d) ∧
      Decoder.parse ⟨[], fun _ => .panic⟩ 4 d .empty ⟨[0, 0], 0⟩ = .ok w ∧
      w.value.1.coerceMapped = .num (.fixed .b16) 2 :=
  ⟨[1, 1, 2], _, _, ⟨order, 6⟩, _, fun _ _ => Classical.propDecidable _, ⟨by simp, by simp, by simp⟩,
    fun _ _ _ => Iff.rfl, rfl, rfl, rfl, rfl, rfl⟩

end Huffman
end Doodle
