import Verif.Lemmas.RiffFound
import Verif.Props.Formats

/-! # C71: RIFF files are decoded by their layout

The format is the one that `main` of `doodle-formats/src/format/riff.rs` adds to a module.  The layout of the files is
specified in `Verif.Spec.Riff`. -/

namespace Doodle
namespace Riff

open Grammar Compiler Helper Formats

section
variable (pre post : List Item)

/-- the module in which `riff::main` has found the items `pre`, with the items `post` added after it -/
abbrev into : Module := within items pre post

theorem main_reads : Grammar.Reads (into pre post) (main pre.length) fun _ u v => ∃ f : File, f.Valid ∧ u = f.encode ∧ v = f.value :=
  reads_item (item_at items pre post (i := 3) rfl) (reads_file (item_at items pre post (i := 0) rfl) (item_at items pre post (i := 1) rfl)
    (item_at items pre post (i := 2) rfl))

/-- Wherever the format is used, it describes the files that begin at the place, with their form and their chunks as value: no
other bytes and no other value. -/
theorem C71_derives (rej : Format → Scope Format → ReadCtxt → Prop) (s : Scope Format) (c c' : ReadCtxt) (v : Value) (k : Nat)
    (h : Parses (into pre post) rej (main pre.length) s c v c' k) :
    ∃ (f : File) (rest : List UInt8), f.Valid ∧ c.input.drop c.offset = f.encode ++ rest ∧ v = f.value ∧
      c' = ⟨c.input, c.offset + f.encode.length⟩ ∧ k = 0 := by
  obtain ⟨_, rest, h1, ⟨f, h2, rfl, rfl⟩, h3, h4⟩ := (main_reads pre post ..).1 h
  exact ⟨f, rest, h2, h1, rfl, h3, h4⟩

/-- It describes every such file. -/
theorem C71_derived (rej : Format → Scope Format → ReadCtxt → Prop) (s : Scope Format) (c : ReadCtxt) (f : File) (rest : List UInt8)
    (hf : f.Valid) (h : c.input.drop c.offset = f.encode ++ rest) :
    Parses (into pre post) rej (main pre.length) s c f.value ⟨c.input, c.offset + f.encode.length⟩ 0 :=
  (main_reads pre post rej s c _ _ 0).2 ⟨_, rest, h, ⟨f, hf, rfl, rfl⟩, rfl, rfl⟩

/-- Whatever else the module contains, and however the decoder is compiled: when decoding succeeds, the bytes that were taken
are a file, the value shows its form and its chunks, and nothing was logged.  Nothing of the data is left unread, neither in
the file nor in a chunk. -/
theorem C71_sound [DecidableEq Next] (o : BuildOpts) (ho : o.ord.Valid) (cfuel : Nat) (prog : List Decoder)
    (hp : compileProgram (into pre post) o cfuel (main pre.length) = .ok prog) (fuel : Nat) (c : ReadCtxt) (w : Parsed)
    (h : Decoder.run (env o prog) fuel c = .ok w) :
    ∃ (f : File) (rest : List UInt8), f.Valid ∧ f.Whole ∧ c.input.drop c.offset = f.encode ++ rest ∧ w.value.1 = f.value ∧
      w.value.2 = ⟨c.input, c.offset + f.encode.length⟩ ∧ w.errs = [] := by
  obtain ⟨M, ⟨d, hd, hc⟩, hM⟩ := compileProgram_spec _ o cfuel _ prog hp
  obtain ⟨d', hd', h⟩ := Outcome.bind_eq_ok.1 h
  have hd' := Outcome.ofPanicky_eq_ok.1 hd'
  change Panicky.unwrap prog[0]? = _ at hd'
  rw [hd] at hd'
  cases hd'
  obtain ⟨u, rest, h1, ⟨f, h2, h3, h4, rfl, h5⟩, h6, h7⟩ := runs_item hM (item_at items pre post (i := 3) rfl)
    (runs_file (linked hM) ho hM (item_at items pre post (i := 0) rfl) (item_at items pre post (i := 1) rfl)
      (item_at items pre post (i := 2) rfl)) _ _ _ _ _ _ _ hc .empty h
  exact ⟨f, rest, h2, ⟨h3, h4⟩, h1, h5, h6, h7⟩

/-- Every such file is decoded, wherever it stands and whatever comes after it, if the input fits into memory: the value shows
its form and its chunks, and nothing is logged.  With `C71_sound`: the inputs that are decoded are exactly those that begin
with such a file. -/
theorem C71_complete [DecidableEq Next] (o : BuildOpts) (ho : o.ord.Valid) (cfuel : Nat) (prog : List Decoder)
    (hp : compileProgram (into pre post) o cfuel (main pre.length) = .ok prog) (c : ReadCtxt) (f : File) (rest : List UInt8)
    (hf : f.Valid) (hw : f.Whole) (h : c.input.drop c.offset = f.encode ++ rest) (hl : c.input.length < 2 ^ 64) :
    ∃ N w, w.value = (f.value, ⟨c.input, c.offset + f.encode.length⟩) ∧ w.errs = [] ∧
      ∀ n, N ≤ n → Decoder.run (env o prog) n c = .ok w := by
  obtain ⟨M, ⟨d, hd, hc⟩, hM⟩ := compileProgram_spec _ o cfuel _ prog hp
  have hi : c.offset ≤ c.input.length := by
    have := within_step h (by simp [File.encode, magic])
    omega
  obtain ⟨N, w, h1, h2, h3⟩ := finds_item (env := env o prog) hM (item_at items pre post (i := 3) rfl)
    (finds_file (env := env o prog) ho hM (item_at items pre post (i := 0) rfl) (item_at items pre post (i := 1) rfl) (item_at items pre post (i := 2) rfl))
    _ _ .empty .empty c f.encode rest f.value hc .empty hl hi h ⟨f, hf, hw, rfl, rfl⟩ (fun h => h.elim)
  exact ⟨N, w, h2, List.length_eq_zero_iff.1 h3, fun n hn =>
    Outcome.bind_eq_ok.2 ⟨d, Outcome.ofPanicky_eq_ok.2 (Compiler.unwrap_eq_ok.2 hd), h1 n hn⟩⟩

/-- No length in the file makes decoding panic, nor does anything else, as long as the input is 4 GiB shorter than the address
space. -/
theorem C71_safe [DecidableEq Next] (o : BuildOpts) (ho : o.ord.Valid) (cfuel : Nat) (prog : List Decoder)
    (hp : compileProgram (into pre post) o cfuel (main pre.length) = .ok prog) (fuel : Nat) (c : ReadCtxt)
    (hc : c.offset ≤ c.input.length) (hl : c.input.length + 2 ^ 32 ≤ usizeCard) :
    Decoder.run (env o prog) fuel c ≠ .panic :=
  C55_no_panic_partial _ o ho cfuel _ prog hp c
    (safe_item (item_at items pre post (i := 3) rfl) (safe_file (item_at items pre post (i := 0) rfl)
      (item_at items pre post (i := 1) rfl) (item_at items pre post (i := 2) rfl)) _ _ _ hc hl) fuel

end

/-- The bytes that a file takes are as many as its length says, with the eight before them and the padding. -/
theorem C71_extent (f : File) (hf : f.Valid) : f.encode.length = 8 + littleEnd f.size + littleEnd f.size % 2 := by
  obtain ⟨h1, _, _, h2⟩ := hf
  unfold File.encode padding
  rw [h2]
  split <;> simp only [List.length_append, h1, magic, List.length_cons, List.length_nil] <;> omega

theorem append_split {a a' b b' : List UInt8} (h : a ++ b = a' ++ b') (hl : a.length = a'.length) : a = a' ∧ b = b' := List.append_inj h hl

theorem chunk_split {c c' : Chunk} (h : c.Valid) (h' : c'.Valid) (hl : c.left = []) (hl' : c'.left = []) {p p' : List UInt8}
    (he : c.encode ++ p = c'.encode ++ p') : c = c' ∧ p = p' := by
  obtain ⟨t, sz, d, l⟩ := c
  obtain ⟨t', sz', d', l'⟩ := c'
  obtain ⟨h1, h2, h3⟩ := h
  obtain ⟨h1', h2', h3'⟩ := h'
  subst hl hl'
  simp only [Chunk.encode, List.append_assoc] at he h1 h2 h3 h1' h2' h3'
  obtain ⟨rfl, he1⟩ := append_split he (h1.trans h1'.symm)
  obtain ⟨rfl, he2⟩ := append_split he1 (h2.trans h2'.symm)
  simp only [List.length_nil, Nat.add_zero] at h3 h3'
  obtain ⟨rfl, he3⟩ := append_split he2 (h3.symm.trans h3')
  exact ⟨rfl, (append_split (append_split he3 rfl).2 rfl).2⟩

theorem encode_long {c : Chunk} (h : c.Valid) : 8 ≤ c.encode.length := by
  obtain ⟨h1, h2, _⟩ := h
  simp only [Chunk.encode, List.length_append, h1, h2]
  omega

theorem chunks_split {cs cs' : List Chunk} (h : ∀ c ∈ cs, c.Valid ∧ c.left = []) (h' : ∀ c ∈ cs', c.Valid ∧ c.left = [])
    (he : cs.flatMap Chunk.encode = cs'.flatMap Chunk.encode) : cs = cs' := by
  induction cs generalizing cs' with
  | nil =>
    cases cs' with
    | nil => rfl
    | cons c' cs' =>
      have := congrArg List.length he
      rw [List.flatMap_cons, List.length_append] at this
      have h8 := encode_long (h' c' (.head _)).1
      simp only [List.flatMap_nil, List.length_nil] at this
      omega
  | cons c cs ih =>
    cases cs' with
    | nil =>
      have := congrArg List.length he
      rw [List.flatMap_cons, List.length_append] at this
      have h8 := encode_long (h c (.head _)).1
      simp only [List.flatMap_nil, List.length_nil] at this
      omega
    | cons c' cs' =>
      rw [List.flatMap_cons, List.flatMap_cons] at he
      obtain ⟨rfl, he1⟩ := chunk_split (h c (.head _)).1 (h' c' (.head _)).1 (h c (.head _)).2 (h' c' (.head _)).2 he
      rw [ih (fun x hx => h x (.tail _ hx)) (fun x hx => h' x (.tail _ hx)) he1]

/-- Bytes are those of one file at most that is read in full: its chunks can be told apart. -/
theorem C71_unique (f f' : File) (p p' : List UInt8) (hf : f.Valid) (hf' : f'.Valid) (hw : f.Whole) (hw' : f'.Whole)
    (he : f.encode ++ p = f'.encode ++ p') : f = f' ∧ p = p' := by
  obtain ⟨sz, fm, cs, l⟩ := f
  obtain ⟨sz', fm', cs', l'⟩ := f'
  obtain ⟨h1, h2, h3, h4⟩ := hf
  obtain ⟨h1', h2', h3', h4'⟩ := hf'
  obtain ⟨hl, hc⟩ := hw
  obtain ⟨hl', hc'⟩ := hw'
  subst hl hl'
  simp only [File.encode, List.append_assoc] at he h1 h2 h3 h4 h1' h2' h3' h4' hc hc'
  obtain ⟨_, he1⟩ := append_split he rfl
  obtain ⟨rfl, he2⟩ := append_split he1 (h1.trans h1'.symm)
  simp only [List.length_nil, Nat.add_zero] at h4 h4'
  obtain ⟨hb, he3⟩ := append_split he2 (h4.symm.trans h4')
  obtain ⟨rfl, hb1⟩ := append_split hb (h2.trans h2'.symm)
  obtain rfl := chunks_split (fun c h => ⟨h3 c h, hc c h⟩) (fun c h => ⟨h3' c h, hc' c h⟩) hb1
  exact ⟨rfl, (append_split (append_split he3 rfl).2 rfl).2⟩

/-- a file of the form `WAVE` with a chunk of one byte, and so with padding -/
def sample : File := ⟨[14, 0, 0, 0], [87, 65, 86, 69], [⟨[100, 97, 116, 97], [1, 0, 0, 0], [7], []⟩], []⟩

example : sample.Valid ∧ sample.Whole ∧ sample.encode =
    [82, 73, 70, 70, 14, 0, 0, 0, 87, 65, 86, 69, 100, 97, 116, 97, 1, 0, 0, 0, 7, 0] := by
  refine ⟨⟨rfl, rfl, ?_, by decide⟩, ⟨rfl, ?_⟩, by decide⟩
  · intro c hc
    rw [List.mem_singleton.1 hc]
    exact ⟨rfl, rfl, by decide⟩
  · intro c hc
    rw [List.mem_singleton.1 hc]

/-- the module that contains nothing but this format -/
def alone : Module := ⟨items 0⟩

/-- the record of a chunk, written out -/
def chain (tag data : Format) : Format := .hint (.letFormat tag "tag" (.letFormat (word .b32 false) "length"
  (.letFormat (.slice (.var "length") data) "data" (.letFormat (.maybe (isOdd (.var "length")) (isByte 0)) "pad"
    (.compute (.record [("tag", .var "tag"), ("length", .var "length"), ("data", .var "data"), ("pad", .var "pad")]))))))

theorem chunk_eq (tag data : Format) : chunk tag data = chain tag data := rfl

theorem alone_moves : alone.LoopsMove := by
  intro i it h
  match i with
  | 0 => cases h; simp [anyTag, u8, Format.LoopsMove, Format.AllLoopsMove, List.replicate]
  | 1 =>
    cases h
    rw [show (⟨[], [], anyChunk 0⟩ : Item).format = chain (.itemVar 0 [] []) (.repeat_ u8) from rfl]
    simp [chain, word, u8, isByte, Format.LoopsMove, Format.AllLoopsMove, Format.BoundsSafe, Format.BoundsSafeWith, List.replicate, Num.BitWidth.bits]
  | 2 =>
    cases h
    rw [show (⟨[], [], subchunks 0⟩ : Item).format = .hint (.letFormat (.itemVar 0 [] []) "tag" (.letFormat (.repeat_ (.itemVar 1 [] [])) "chunks"
      (.compute (.record [("tag", .var "tag"), ("chunks", .var "chunks")])))) from rfl]
    simp [alone, items, anyChunk, chunk_eq, chain, word, u8, isByte, Format.LoopsMove, Format.AllLoopsMove, Format.BoundsSafe,
      Format.BoundsSafeWith, Format.ItemBoundsSafe, Format.AllBoundsSafe, anyTag, Expr.SpineSafe, List.replicate, Num.BitWidth.bits]
  | 3 =>
    cases h
    rw [show (⟨[], [], chunk (isBytes [0x52, 0x49, 0x46, 0x46]) (.itemVar 2 [] [])⟩ : Item).format =
      chain (isBytes [0x52, 0x49, 0x46, 0x46]) (.itemVar 2 [] []) from rfl]
    simp [chain, word, isBytes, isByte, Format.LoopsMove, Format.AllLoopsMove, List.replicate, Num.BitWidth.bits]
  | i + 4 => simp [alone, items] at h

/-- Decoding comes to an end on every input. -/
theorem C71_terminates [DecidableEq Next] (o : BuildOpts) (ho : o.ord.Valid) (hfuel : 6 ≤ o.fuel) (cfuel : Nat) (prog : List Decoder)
    (hp : compileProgram alone o cfuel (main 0) = .ok prog) (c : ReadCtxt) (hi : c.Inside) :
    ∃ N, Decoder.run (env o prog) N c ≠ .fuel ∧ ∀ n, N ≤ n → Decoder.run (env o prog) n c = Decoder.run (env o prog) N c :=
  C14_terminates_partial alone alone_moves o ho hfuel cfuel (main 0) (by simp only [main, Format.LoopsMove]; decide) prog hp c hi

/-- how deep the description is of what may follow -/
def depth : Next → Nat
  | .empty => 0
  | .union a b => depth a + depth b + 1
  | .cat _ x | .sequence _ x | .repeat_ _ x | .repeatCount _ _ x | .repeatMax _ _ x | .repeatBetween _ _ _ x => depth x + 1
  | .slice _ a b | .peek a b | .peekNot a b => depth a + depth b + 1

/-- descriptions of different depth differ -/
noncomputable def compare : DecidableEq Next
  | .empty, .empty => isTrue rfl
  | a, b => if h : depth a = depth b then Classical.propDecidable _ else isFalse fun e => h (congrArg depth e)

/-- whether the bytes are decoded to their end -/
def takesAll [DecidableEq Next] (o : BuildOpts) (u : List UInt8) : Bool :=
  match compileProgram alone o 20 (main 0) with
  | .ok prog =>
    match Decoder.run (env o prog) 60 ⟨u, 0⟩ with
    | .ok w => decide (w.value.2.offset = u.length)
    | _ => false
  | _ => false

/-- it is decoded -/
example : @takesAll compare ⟨fun _ l => l, 20⟩ sample.encode = true := by
  decide +kernel

end Riff
end Doodle
