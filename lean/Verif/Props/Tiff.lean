import Verif.Lemmas.TiffFound
import Verif.Props.Riff

/-! # C73: TIFF headers are decoded by their layout

The format is the one that `main` of `doodle-formats/src/format/tiff.rs` adds to a module.  The layout is specified in
`Verif.Spec.Tiff`. -/

namespace Doodle
namespace Tiff

open Grammar Compiler Helper Formats

section
variable (pre post : List Item)

/-- the module in which `tiff::main` has found the items `pre`, with the items `post` added after it -/
abbrev into : Module := within items pre post

/-- Wherever the format is used, and as far as positions fit into 64 bits: it describes the headers that begin at the place,
each with a directory that begins as far from the beginning of the header as its offset says.  All numbers are read in the byte
order that the first two bytes tell.  Eight bytes are taken, wherever the directory is. -/
theorem C73_derives (rej : Format → Scope Format → ReadCtxt → Prop) (s : Scope Format) (c c' : ReadCtxt) (v : Value) (k : Nat)
    (hc : c.offset < 2 ^ 64) (h : Parses (into pre post) rej (main pre.length) s c v c' k) :
    ∃ (h : Header) (d : Directory) (rest rest' : List UInt8), h.Valid ∧ d.Valid h.be ∧
      c.input.drop c.offset = h.encode ++ rest ∧ c.input.drop (c.offset + number h.be h.offset) = d.encode ++ rest' ∧
      v = h.value c.offset d ∧ c' = ⟨c.input, c.offset + 8⟩ ∧ k = 0 := by
  cases h with
  | itemVar a1 a2 a3 a4 =>
    cases (item_at items pre post (i := 4) rfl).symm.trans a1
    cases a2
    cases a3
    obtain ⟨h, d, r, r', h1, h2, h3, h4, h5, h6, h7⟩ := (header_parses (item_at items pre post (i := 0) rfl)
      (item_at items pre post (i := 1) rfl) (item_at items pre post (i := 2) rfl) (item_at items pre post (i := 3) rfl) hc).1 a4
    refine ⟨h, d, r, r', h1, h2, h3, h4, h5, ?_, h7⟩
    have : (mark h.be).length = 2 := by cases h.be <;> rfl
    rw [h6, Header.encode, List.length_append, List.length_append, this, h1.1, h1.2]

/-- It describes every such header with every such directory. -/
theorem C73_derived (rej : Format → Scope Format → ReadCtxt → Prop) (s : Scope Format) (c : ReadCtxt) (hc : c.offset < 2 ^ 64)
    (h : Header) (d : Directory) (rest rest' : List UInt8) (hh : h.Valid) (hd : d.Valid h.be)
    (h1 : c.input.drop c.offset = h.encode ++ rest) (h2 : c.input.drop (c.offset + number h.be h.offset) = d.encode ++ rest') :
    Parses (into pre post) rej (main pre.length) s c (h.value c.offset d) ⟨c.input, c.offset + 8⟩ 0 := by
  have : (mark h.be).length = 2 := by cases h.be <;> rfl
  refine .itemVar (item_at items pre post (i := 4) rfl) .nil .nil ((header_parses (item_at items pre post (i := 0) rfl)
      (item_at items pre post (i := 1) rfl) (item_at items pre post (i := 2) rfl) (item_at items pre post (i := 3) rfl) hc).2
    ⟨h, d, rest, rest', hh, hd, h1, h2, rfl, ?_, rfl⟩)
  rw [Header.encode, List.length_append, List.length_append, this, hh.1, hh.2]

/-- Every header is decoded whose offset leads to a directory, with any bytes after the directory, if the input fits into memory:
the value shows the header, the entries of the directory and all bytes after it, and nothing is logged. -/
theorem C73_complete [DecidableEq Next] (o : BuildOpts) (ho : o.ord.Valid) (cfuel : Nat) (prog : List Decoder)
    (hp : compileProgram (into pre post) o cfuel (main pre.length) = .ok prog) (c : ReadCtxt) (h : Header) (d : Directory) (rest : List UInt8)
    (hh : h.Valid) (hd : d.Valid h.be) (h1 : c.input.drop c.offset = h.encode ++ rest)
    (h2 : c.input.drop (c.offset + number h.be h.offset) = d.encode) (hl : c.input.length < 2 ^ 64) :
    ∃ N w, w.value = (h.value c.offset d, ⟨c.input, c.offset + 8⟩) ∧ w.errs = [] ∧ ∀ n, N ≤ n → Decoder.run (env o prog) n c = .ok w := by
  obtain ⟨M, ⟨dec, hdec, hc⟩, hM⟩ := compileProgram_spec _ o cfuel _ prog hp
  have hlen : h.encode.length = 8 := by
    have : (mark h.be).length = 2 := by cases h.be <;> rfl
    rw [Header.encode, List.length_append, List.length_append, this, hh.1, hh.2]
  have hf : Found (env o prog) dec .empty c (h.value c.offset d) ⟨c.input, c.offset + h.encode.length⟩ 0 := by
    cases hc with
    | @itemVar _ _ _ it' _ dep k a1 a2 a3 =>
      obtain ⟨it'', d', a4, a5, a6⟩ := hM _ _ _ a3
      cases (item_at items pre post (i := 4) rfl).symm.trans a4
      cases (item_at items pre post (i := 4) rfl).symm.trans (show (into pre post).items[pre.length + 4]? = some it' from a1)
      refine (found_header (env := env o prog) (s := .multi [] .empty) (s' := .multi [] .empty) ho hM (item_at items pre post (i := 0) rfl)
        (item_at items pre post (i := 1) rfl) (item_at items pre post (i := 2) rfl) (item_at items pre post (i := 3) rfl)
        h d rest hh hd a6 (.multi .empty) hl h1 h2).wrap id (fun n w h6 _ _ => ?_) rfl
      unfold Decoder.parse
      exact Outcome.bind_eq_ok.2 ⟨_, rfl, Outcome.bind_eq_ok.2 ⟨_, rfl, Outcome.bind_eq_ok.2
        ⟨_, Outcome.ofPanicky_eq_ok.2 (Compiler.unwrap_eq_ok.2 a5), h6⟩⟩⟩
  obtain ⟨N, w, h3, h4, h5⟩ := hf
  rw [hlen] at h4
  exact ⟨N, w, h4, List.length_eq_zero_iff.1 h5, fun n hn =>
    Outcome.bind_eq_ok.2 ⟨dec, Outcome.ofPanicky_eq_ok.2 (Compiler.unwrap_eq_ok.2 hdec), h3 n hn⟩⟩

/-- Whatever else the module contains, and however the decoder is compiled: when decoding succeeds, there are a header and, where
its offset says, a directory, the value shows them and all bytes after the directory, eight bytes were taken, and nothing was
logged.  With `C73_complete`: the inputs that are decoded are exactly those that begin with such a header. -/
theorem C73_sound [DecidableEq Next] (o : BuildOpts) (ho : o.ord.Valid) (cfuel : Nat) (prog : List Decoder)
    (hp : compileProgram (into pre post) o cfuel (main pre.length) = .ok prog) (fuel : Nat) (c : ReadCtxt) (w : Parsed)
    (hc : c.offset ≤ c.input.length) (hl : c.input.length < 2 ^ 64) (h : Decoder.run (env o prog) fuel c = .ok w) :
    ∃ (h : Header) (d : Directory) (rest : List UInt8), h.Valid ∧ d.Valid h.be ∧
      c.input.drop c.offset = h.encode ++ rest ∧ c.input.drop (c.offset + number h.be h.offset) = d.encode ∧
      w.value.1 = h.value c.offset d ∧ w.value.2 = ⟨c.input, c.offset + 8⟩ ∧ w.errs = [] := by
  obtain ⟨M, hM⟩ := C11_sound_partial _ o cfuel _ prog hp fuel c w h
  obtain ⟨x, d, r, r', h1, h2, h3, h4, -⟩ := C73_derives pre post _ _ _ _ _ _ (by omega) hM
  have h2' : Directory.Valid x.be { d with more := d.more ++ r' } := h2
  have h4' : c.input.drop (c.offset + number x.be x.offset) = Directory.encode { d with more := d.more ++ r' } := by
    rw [h4]
    simp [Directory.encode]
  obtain ⟨N, w', h5, h6, h7⟩ := C73_complete pre post o ho cfuel prog hp c x _ r h1 h2' h3 h4' hl
  have : w' = w := by
    obtain ⟨d1, a1, a2⟩ := Outcome.bind_eq_ok.1 h
    obtain ⟨d2, b1, b2⟩ := Outcome.bind_eq_ok.1 (h7 (max N fuel) (by omega))
    cases a1.symm.trans b1
    have := (Record.parse_mono a2 (by simp) (by omega : fuel ≤ max N fuel)).symm.trans b2
    cases this
    rfl
  subst this
  exact ⟨x, _, r, h1, h2', h3, h4', by rw [h5], by rw [h5], h6⟩

/-- No offset and no number of entries in the input makes decoding panic, nor does anything else, as long as the input is 4 GiB
shorter than the address space. -/
theorem C73_safe [DecidableEq Next] (o : BuildOpts) (ho : o.ord.Valid) (cfuel : Nat) (prog : List Decoder)
    (hp : compileProgram (into pre post) o cfuel (main pre.length) = .ok prog) (fuel : Nat) (c : ReadCtxt)
    (hc : c.offset ≤ c.input.length) (hl : c.input.length + 2 ^ 32 ≤ usizeCard) :
    Decoder.run (env o prog) fuel c ≠ .panic :=
  C55_no_panic_partial _ o ho cfuel _ prog hp c
    (Riff.safe_item (item_at items pre post (i := 4) rfl) (safe_header (item_at items pre post (i := 0) rfl)
      (item_at items pre post (i := 1) rfl) (item_at items pre post (i := 2) rfl) (item_at items pre post (i := 3) rfl)) _ _ _ hc hl) fuel

end

theorem entries_split {es es' : List Entry} (h : ∀ e ∈ es, e.Valid) (h' : ∀ e ∈ es', e.Valid) (hl : es.length = es'.length)
    {p p' : List UInt8} (he : es.flatMap Entry.encode ++ p = es'.flatMap Entry.encode ++ p') : es = es' ∧ p = p' := by
  induction es generalizing es' with
  | nil =>
    cases es' with
    | nil => exact ⟨rfl, he⟩
    | cons => cases hl
  | cons e es ih =>
    cases es' with
    | nil => cases hl
    | cons e' es' =>
      obtain ⟨a, b, c, d⟩ := e
      obtain ⟨a', b', c', d'⟩ := e'
      obtain ⟨k1, k2, k3, k4⟩ := h _ (.head _)
      obtain ⟨k1', k2', k3', k4'⟩ := h' _ (.head _)
      simp only [List.flatMap_cons, Entry.encode, List.append_assoc] at he k1 k2 k3 k4 k1' k2' k3' k4'
      obtain ⟨rfl, he1⟩ := List.append_inj he (k1.trans k1'.symm)
      obtain ⟨rfl, he2⟩ := List.append_inj he1 (k2.trans k2'.symm)
      obtain ⟨rfl, he3⟩ := List.append_inj he2 (k3.trans k3'.symm)
      obtain ⟨rfl, he4⟩ := List.append_inj he3 (k4.trans k4'.symm)
      obtain ⟨rfl, he5⟩ := ih (fun e he => h e (.tail _ he)) (fun e he => h' e (.tail _ he)) (Nat.succ.inj hl) he4
      exact ⟨rfl, he5⟩

/-- Bytes are those of one header only, and of one directory only in each byte order. -/
theorem C73_unique :
    (∀ (h h' : Header) (r r' : List UInt8), h.Valid → h'.Valid → h.encode ++ r = h'.encode ++ r' → h = h' ∧ r = r') ∧
      ∀ (be : Bool) (d d' : Directory), d.Valid be → d'.Valid be → d.encode = d'.encode → d = d' := by
  constructor
  · rintro ⟨be, mg, of⟩ ⟨be', mg', of'⟩ r r' ⟨h1, h2⟩ ⟨h1', h2'⟩ he
    simp only [Header.encode, List.append_assoc] at he h1 h2 h1' h2'
    obtain ⟨hm, he6⟩ := List.append_inj he (by cases be <;> cases be' <;> rfl)
    have : be = be' := by revert hm; cases be <;> cases be' <;> simp [mark]
    subst this
    obtain ⟨rfl, he7⟩ := List.append_inj he6 (h1.trans h1'.symm)
    obtain ⟨rfl, he8⟩ := List.append_inj he7 (h2.trans h2'.symm)
    exact ⟨rfl, he8⟩
  · rintro be ⟨a, es, n, x⟩ ⟨a', es', n', x'⟩ ⟨h1, h2, h3, h4⟩ ⟨h1', h2', h3', h4'⟩ he
    simp only [Directory.encode, List.append_assoc] at he h1 h2 h3 h4 h1' h2' h3' h4'
    obtain ⟨rfl, he9⟩ := List.append_inj he (h1.trans h1'.symm)
    obtain ⟨rfl, he10⟩ := entries_split h2 h2' (h3.symm.trans h3') he9
    obtain ⟨rfl, rfl⟩ := List.append_inj he10 (h4.trans h4'.symm)
    rfl

/-- the module that contains nothing but this format -/
def alone : Module := ⟨items 0⟩

theorem alone_moves : alone.LoopsMove := by
  intro i it h
  have hd : ∀ be k, (directory be).LoopsMove alone k := by
    intro be k
    rw [directory_eq, entry_eq]
    simp [word, u8, Format.LoopsMove, Format.AllLoopsMove, Format.BoundsSafe, Format.BoundsSafeWith,
      List.replicate, Num.BitWidth.bits]
  match i with
  | 0 => cases h; exact hd false _
  | 1 => cases h; exact hd true _
  | 2 => cases h; simp [orders, alts, isBytes, isByte, Format.LoopsMove, Format.AllLoopsMove]
  | 3 => cases h; simp [byOrder, Format.LoopsMove, Format.BranchesLoopsMove]
  | 4 =>
    cases h
    rw [show (⟨[], [], header 0⟩ : Item).format = header 0 from rfl, header_eq]
    simp [byOrder, word, Format.LoopsMove, Format.BranchesLoopsMove, Format.AllLoopsMove, List.replicate, Num.BitWidth.bits]
  | i + 5 => simp [alone, items] at h

/-- Decoding comes to an end on every input. -/
theorem C73_terminates [DecidableEq Next] (o : BuildOpts) (ho : o.ord.Valid) (hfuel : 6 ≤ o.fuel) (cfuel : Nat) (prog : List Decoder)
    (hp : compileProgram alone o cfuel (main 0) = .ok prog) (c : ReadCtxt) (hi : c.Inside) :
    ∃ N, Decoder.run (env o prog) N c ≠ .fuel ∧ ∀ n, N ≤ n → Decoder.run (env o prog) n c = Decoder.run (env o prog) N c :=
  C14_terminates_partial alone alone_moves o ho hfuel cfuel (main 0) (by simp only [main, Format.LoopsMove]; decide) prog hp c hi

/-- a header in the order `MM`, with a directory of one entry ten bytes after its beginning -/
def sample : Header := ⟨true, [0, 42], [0, 0, 0, 10]⟩

/-- its directory -/
def sampleDirectory : Directory := ⟨[0, 1], [⟨[1, 0], [0, 4], [0, 0, 0, 1], [0, 0, 2, 0]⟩], [0, 0, 0, 0], [7]⟩

/-- the file, with two bytes between the header and the directory -/
def sampleFile : List UInt8 := sample.encode ++ [9, 9] ++ sampleDirectory.encode

example : sample.Valid ∧ sampleDirectory.Valid sample.be ∧ number sample.be sample.offset = 10 ∧
    sampleFile.drop (number sample.be sample.offset) = sampleDirectory.encode := by
  refine ⟨⟨rfl, rfl⟩, ⟨rfl, ?_, by decide, rfl⟩, by decide, by decide⟩
  intro e he
  simp only [sampleDirectory, List.mem_cons, List.not_mem_nil, or_false] at he
  subst he
  exact ⟨rfl, rfl, rfl, rfl⟩

/-- whether the bytes are decoded -/
def takes [DecidableEq Next] (o : BuildOpts) (u : List UInt8) : Bool :=
  match compileProgram alone o 20 (main 0) with
  | .ok prog =>
    match Decoder.run (env o prog) 60 ⟨u, 0⟩ with
    | .ok w => decide (w.value.2.offset = 8)
    | _ => false
  | _ => false

/-- it is decoded -/
example : @takes Riff.compare ⟨fun _ l => l, 20⟩ sampleFile = true := by
  decide +kernel

/-- in the other byte order the offset is outside of the file -/
example : @takes Riff.compare ⟨fun _ l => l, 20⟩ (mark false ++ sampleFile.drop 2) = false := by
  decide +kernel

end Tiff
end Doodle
