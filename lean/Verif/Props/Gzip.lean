import Verif.Lemmas.Gzip
import Verif.Props.Riff

/-! # C72: the extra fields of gzip are decoded by their layout

The format is the one that `main` of `doodle-formats/src/format/gzip.rs` calls for the extra field.  The layout is specified
in `Verif.Spec.Gzip`. -/

namespace Doodle
namespace Gzip

open Grammar Compiler Helper Formats

section
variable (pre post : List Item)

/-- the module in which `gzip.fextra.subfield` has found the items `pre`, with the items `post` after `gzip.fextra` -/
abbrev into : Module := within items pre post

/-- Whatever else the module contains, and however the decoder is compiled: when decoding succeeds, the bytes that were taken
are an extra field, its length is that of its subfields together, the value shows all of them, and nothing was logged. -/
theorem C72_sound [DecidableEq Next] (o : BuildOpts) (ho : o.ord.Valid) (cfuel : Nat) (prog : List Decoder)
    (hp : compileProgram (into pre post) o cfuel (main pre.length) = .ok prog) (fuel : Nat) (c : ReadCtxt) (w : Parsed)
    (h : Decoder.run (env o prog) fuel c = .ok w) :
    ∃ (x : Extra) (rest : List UInt8), x.Valid ∧ c.input.drop c.offset = x.encode ++ rest ∧ w.value.1 = x.value ∧
      w.value.2 = ⟨c.input, c.offset + x.encode.length⟩ ∧ w.errs = [] := by
  obtain ⟨M, ⟨d, hd, hc⟩, hM⟩ := compileProgram_spec _ o cfuel _ prog hp
  obtain ⟨d', hd', h⟩ := Outcome.bind_eq_ok.1 h
  have hd' := Outcome.ofPanicky_eq_ok.1 hd'
  change Panicky.unwrap prog[0]? = _ at hd'
  rw [hd] at hd'
  cases hd'
  obtain ⟨u, rest, h1, ⟨x, h2, rfl, h3⟩, h4, h5⟩ := Riff.runs_item (env := env o prog) hM (item_at items pre post (i := 1) rfl)
    (runs_extra (env := env o prog) (linked hM) ho hM (item_at items pre post (i := 0) rfl)) _ _ _ _ _ _ _ hc .empty h
  exact ⟨x, rest, h2, h1, h3, h4, h5⟩

/-- Every extra field is decoded, wherever it stands and whatever comes after it, if the input fits into memory.  With
`C72_sound`: the inputs that are decoded are exactly those that begin with an extra field. -/
theorem C72_complete [DecidableEq Next] (o : BuildOpts) (ho : o.ord.Valid) (cfuel : Nat) (prog : List Decoder)
    (hp : compileProgram (into pre post) o cfuel (main pre.length) = .ok prog) (c : ReadCtxt) (x : Extra) (rest : List UInt8)
    (hx : x.Valid) (h : c.input.drop c.offset = x.encode ++ rest) (hl : c.input.length < 2 ^ 64) :
    ∃ N w, w.value = (x.value, ⟨c.input, c.offset + x.encode.length⟩) ∧ w.errs = [] ∧
      ∀ n, N ≤ n → Decoder.run (env o prog) n c = .ok w := by
  obtain ⟨M, ⟨d, hd, hc⟩, hM⟩ := compileProgram_spec _ o cfuel _ prog hp
  have hi : c.offset ≤ c.input.length := by
    have := within_step h (fun he => by
      have := congrArg List.length he
      simp only [Extra.encode, List.length_append, hx.1, List.length_nil] at this
      omega)
    omega
  obtain ⟨N, w, h1, h2, h3⟩ := Riff.finds_item (env := env o prog) hM (item_at items pre post (i := 1) rfl)
    (finds_extra (env := env o prog) ho hM (item_at items pre post (i := 0) rfl))
    _ _ .empty .empty c x.encode rest x.value hc .empty hl hi h ⟨x, hx, rfl, rfl⟩ (fun h => h.elim)
  exact ⟨N, w, h2, List.length_eq_zero_iff.1 h3, fun n hn =>
    Outcome.bind_eq_ok.2 ⟨d, Outcome.ofPanicky_eq_ok.2 (Compiler.unwrap_eq_ok.2 hd), h1 n hn⟩⟩

/-- No length in the input makes decoding panic, nor does anything else, as long as the input is 4 GiB shorter than the address
space. -/
theorem C72_safe [DecidableEq Next] (o : BuildOpts) (ho : o.ord.Valid) (cfuel : Nat) (prog : List Decoder)
    (hp : compileProgram (into pre post) o cfuel (main pre.length) = .ok prog) (fuel : Nat) (c : ReadCtxt)
    (hc : c.offset ≤ c.input.length) (hl : c.input.length + 2 ^ 32 ≤ usizeCard) :
    Decoder.run (env o prog) fuel c ≠ .panic :=
  C55_no_panic_partial _ o ho cfuel _ prog hp c
    (Riff.safe_item (item_at items pre post (i := 1) rfl) (safe_extra (item_at items pre post (i := 0) rfl)) _ _ _ hc hl) fuel

end

theorem sub_split {x x' : Sub} (h : x.Valid) (h' : x'.Valid) {p p' : List UInt8} (he : x.encode ++ p = x'.encode ++ p') : x = x' ∧ p = p' := by
  obtain ⟨a, b, sz, d⟩ := x
  obtain ⟨a', b', sz', d'⟩ := x'
  obtain ⟨h1, h2⟩ := h
  obtain ⟨h1', h2'⟩ := h'
  simp only [Sub.encode, List.cons_append, List.append_assoc, List.cons.injEq] at he h1 h2 h1' h2'
  obtain ⟨rfl, rfl, he⟩ := he
  obtain ⟨rfl, he1⟩ := List.append_inj he (h1.trans h1'.symm)
  obtain ⟨rfl, he2⟩ := List.append_inj he1 (h2.symm.trans h2')
  exact ⟨rfl, he2⟩

theorem subs_split {xs xs' : List Sub} (h : ∀ x ∈ xs, x.Valid) (h' : ∀ x ∈ xs', x.Valid)
    (he : xs.flatMap Sub.encode = xs'.flatMap Sub.encode) : xs = xs' := by
  induction xs generalizing xs' with
  | nil =>
    cases xs' with
    | nil => rfl
    | cons x' xs' => simp [Sub.encode] at he
  | cons x xs ih =>
    cases xs' with
    | nil => simp [Sub.encode] at he
    | cons x' xs' =>
      rw [List.flatMap_cons, List.flatMap_cons] at he
      obtain ⟨rfl, he1⟩ := sub_split (h x (.head _)) (h' x' (.head _)) he
      rw [ih (fun x hx => h x (.tail _ hx)) (fun x hx => h' x (.tail _ hx)) he1]

/-- Bytes are those of one extra field at most: its subfields can be told apart. -/
theorem C72_unique (x x' : Extra) (p p' : List UInt8) (hx : x.Valid) (hx' : x'.Valid) (he : x.encode ++ p = x'.encode ++ p') :
    x = x' ∧ p = p' := by
  obtain ⟨sz, xs⟩ := x
  obtain ⟨sz', xs'⟩ := x'
  obtain ⟨h1, h2, h3⟩ := hx
  obtain ⟨h1', h2', h3'⟩ := hx'
  simp only [Extra.encode, List.append_assoc] at he h1 h2 h3 h1' h2' h3'
  obtain ⟨rfl, he1⟩ := List.append_inj he (h1.trans h1'.symm)
  obtain ⟨he2, rfl⟩ := List.append_inj he1 (h3.symm.trans h3')
  rw [subs_split h2 h2' he2]
  exact ⟨rfl, rfl⟩

/-- the module that contains nothing but this format -/
def alone : Module := ⟨items 0⟩

theorem alone_moves : alone.LoopsMove := by
  intro i it h
  match i with
  | 0 =>
    cases h
    rw [show (⟨[], [], subfield⟩ : Item).format = subfield from rfl, subfield_eq]
    simp [word, u8, Format.LoopsMove, Format.AllLoopsMove, List.replicate, Num.BitWidth.bits]
  | 1 =>
    cases h
    rw [show (⟨[], [], extra 0⟩ : Item).format = extra 0 from rfl, extra_eq]
    simp [alone, items, subfield_eq, word, u8, Format.LoopsMove, Format.AllLoopsMove, Format.BoundsSafe, Format.BoundsSafeWith,
      Format.AllBoundsSafe, Format.ItemBoundsSafe, Expr.SpineSafe, List.replicate, Num.BitWidth.bits]
  | i + 2 => simp [alone, items] at h

/-- Decoding comes to an end on every input. -/
theorem C72_terminates [DecidableEq Next] (o : BuildOpts) (ho : o.ord.Valid) (hfuel : 6 ≤ o.fuel) (cfuel : Nat) (prog : List Decoder)
    (hp : compileProgram alone o cfuel (main 0) = .ok prog) (c : ReadCtxt) (hi : c.Inside) :
    ∃ N, Decoder.run (env o prog) N c ≠ .fuel ∧ ∀ n, N ≤ n → Decoder.run (env o prog) n c = Decoder.run (env o prog) N c :=
  C14_terminates_partial alone alone_moves o ho hfuel cfuel (main 0) (by simp only [main, Format.LoopsMove]; decide) prog hp c hi

/-- two subfields, the second one without data -/
def sample : Extra := ⟨[10, 0], [⟨65, 112, [2, 0], [7, 8]⟩, ⟨66, 67, [0, 0], []⟩]⟩

example : sample.Valid ∧ sample.encode = [10, 0, 65, 112, 2, 0, 7, 8, 66, 67, 0, 0] := by
  refine ⟨⟨rfl, ?_, by decide⟩, by decide⟩
  intro y hy
  simp only [sample, List.mem_cons, List.not_mem_nil, or_false] at hy
  rcases hy with rfl | rfl <;> exact ⟨rfl, by decide⟩

/-- whether the bytes are decoded to their end -/
def takesAll [DecidableEq Next] (o : BuildOpts) (u : List UInt8) : Bool :=
  match compileProgram alone o 20 (main 0) with
  | .ok prog =>
    match Decoder.run (env o prog) 60 ⟨u, 0⟩ with
    | .ok w => decide (w.value.2.offset = u.length)
    | _ => false
  | _ => false

/-- it is decoded -/
example : @takesAll Riff.compare ⟨fun _ l => l, 20⟩ sample.encode = true := by
  decide +kernel

/-- a subfield that is longer than the field is not -/
example : @takesAll Riff.compare ⟨fun _ l => l, 20⟩ [5, 0, 65, 112, 2, 0, 7, 8] = false := by
  decide +kernel

end Gzip
end Doodle
