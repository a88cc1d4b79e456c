import Verif.Lemmas.Sound
import Verif.Lemmas.CompileMono
import Verif.Props.Decode

/-! Property C11: what the compiled program of a format returns is a derivation of the format. -/

namespace Doodle

open Grammar Compiler

/-- Running the decoder that the compiler makes for `f` (as a part of the module `m`) fails at `c`. -/
def FailsAt (m : Module) (o : BuildOpts) (M : List ((Nat × Next) × Nat)) (env : Env) (f : Format)
    (s : Scope Format) (c : ReadCtxt) : Prop :=
  ∃ next d s' fuel e, Compiles (.both m o M) f next d ∧
    ScopeRel (fun f d => ∃ next, Compiles (.both m o M) f next d) s s' ∧
    Decoder.parse env fuel d s' c = .err e

theorem linked [DecidableEq Next] {m : Module} {o : BuildOpts} {prog : List Decoder}
    {M : List ((Nat × Next) × Nat)}
    (hM : ∀ level next k, ((level, next), k) ∈ M → ∃ it d, m.items[level]? = some it ∧
      prog[k]? = some d ∧ Compiles (.of m o M) it.format next d) :
    Sound.Linked (.both m o M) m (env o prog) where
  item := fun _ _ h => h
  calls := by
    intro level next k it hi hk
    obtain ⟨it', d, h1, h2, h3⟩ := hM level next k hk
    have h4 : m.items[level]? = some it := hi
    rw [h4] at h1
    cases h1
    exact ⟨d, h2, h3.mono (CRel.of_le_both m o M)⟩
  dyn := by
    intro f d h
    obtain ⟨M', hM'⟩ := compileOne_spec o f d h
    exact ⟨_, hM'.mono (CRel.empty_le_both m o M M')⟩

/-- Whatever a compiled program returns for an input is a derivation of the format: the value, the rest of
the input, and as many tolerated deviations as errors were logged.  Negative conditions (`PeekNot`,
earlier alternatives of `UnionNondet`, the fallback of `Permit`) are witnessed by a failing run of the
decoder compiled for the format in question. -/
theorem C11_sound_partial [DecidableEq Next] (m : Module) (o : BuildOpts) (cfuel : Nat) (f : Format) (prog : List Decoder)
    (hp : compileProgram m o cfuel f = .ok prog) (fuel : Nat) (c : ReadCtxt) (w : Parsed)
    (h : Decoder.run (env o prog) fuel c = .ok w) :
    ∃ M, Parses m (FailsAt m o M (env o prog)) f .empty c w.value.1 w.value.2 w.errs.length := by
  obtain ⟨M, ⟨d, hd, hc⟩, hM⟩ := compileProgram_spec m o cfuel f prog hp
  obtain ⟨d', hd', h⟩ := Outcome.bind_eq_ok.1 h
  have hd' := Outcome.ofPanicky_eq_ok.1 hd'
  change Panicky.unwrap prog[0]? = _ at hd'
  rw [hd] at hd'
  cases hd'
  exact ⟨M, Sound.parse_sound (linked hM) fuel f .empty d .empty .empty c w
    (hc.mono (CRel.of_le_both m o M)) .empty h⟩

mutual
/-- no `PeekNot`, `UnionNondet` or `Permit` in the format -/
def Format.definite : Format → Bool
  | .peekNot _ => false
  | .unionNondet _ => false
  | .permit _ _ => false
  | .variant _ f => f.definite
  | .union fs => Format.allDefinite fs
  | .tuple fs => Format.allDefinite fs
  | .sequence fs => Format.allDefinite fs
  | .repeat_ f => f.definite
  | .repeat1 f => f.definite
  | .repeatCount _ f => f.definite
  | .repeatBetween _ _ f => f.definite
  | .repeatUntilLast _ f => f.definite
  | .repeatUntilSeq _ f => f.definite
  | .accumUntil _ _ _ _ f => f.definite
  | .forEach _ _ f => f.definite
  | .maybe _ f => f.definite
  | .peek f => f.definite
  | .slice _ f => f.definite
  | .bits f => f.definite
  | .withRelativeOffset _ _ f => f.definite
  | .map f _ => f.definite
  | .where_ f _ _ => f.definite
  | .let_ _ _ f => f.definite
  | .match_ _ bs => Format.branchesDefinite bs
  | .dynamic _ _ _ f => f.definite
  | .decodeBytes _ f => f.definite
  | .letFormat f _ g => f.definite && g.definite
  | .monadSeq f g => f.definite && g.definite
  | .hint f => f.definite
  | .liftedSome f => f.definite
  | .letView _ f => f.definite
  | .parseFromView _ f => f.definite
  | .enforce f => f.definite
  | _ => true

/-- all of them -/
def Format.allDefinite : List Format → Bool
  | [] => true
  | f :: fs => f.definite && Format.allDefinite fs

/-- all of them -/
def Format.branchesDefinite : List (Pattern × Format) → Bool
  | [] => true
  | (_, f) :: fs => f.definite && Format.branchesDefinite fs
end

private theorem allDefinite_get {fs : List Format} (h : Format.allDefinite fs = true) {i : Nat} {f : Format}
    (hf : fs[i]? = some f) : f.definite = true := by
  induction fs generalizing i with
  | nil => simp at hf
  | cons g fs ih =>
    simp only [Format.allDefinite, Bool.and_eq_true] at h
    cases i with
    | zero => simp at hf; rw [← hf]; exact h.1
    | succ i => exact ih h.2 (by simpa using hf)

private theorem branchesDefinite_get {fs : List (Pattern × Format)} (h : Format.branchesDefinite fs = true) {i : Nat}
    {p : Pattern} {f : Format} (hf : fs[i]? = some (p, f)) : f.definite = true := by
  induction fs generalizing i with
  | nil => simp at hf
  | cons g fs ih =>
    obtain ⟨q, g⟩ := g
    simp only [Format.branchesDefinite, Bool.and_eq_true] at h
    cases i with
    | zero => simp at hf; rw [← hf.2]; exact h.1
    | succ i => exact ih h.2 (by simpa using hf)

/-- every format bound in the scope is definite -/
private def ScopeDefinite (s : Scope Format) : Prop := ∀ x g, s.getDecoder x = some g → g.definite = true

private theorem ScopeDefinite.single {s : Scope Format} (h : ScopeDefinite s) (x : String) (v : Value) :
    ScopeDefinite (.single x v s) := fun y g hg => h y g hg

private theorem ScopeDefinite.view {s : Scope Format} (h : ScopeDefinite s) (x : String) (v : ReadCtxt) :
    ScopeDefinite (.view x v s) := fun y g hg => h y g hg

private theorem ScopeDefinite.multi (es : List (String × ViewOrValue)) :
    ScopeDefinite (.multi es .empty) := fun y g hg => by cases hg

private theorem ScopeDefinite.withBindings {s : Scope Format} (h : ScopeDefinite s) (bs : List (String × Value)) :
    ScopeDefinite (s.withBindings bs) := by
  intro y g hg
  exact h y g hg

private theorem ScopeDefinite.decoder {s : Scope Format} (h : ScopeDefinite s) (x : String) {f : Format}
    (hf : f.definite = true) : ScopeDefinite (.decoder x f s) := by
  intro y g hg
  simp only [Scope.getDecoder] at hg
  split at hg
  · cases hg; exact hf
  · exact h y g hg

private theorem huffman_definite {ls : List Nat} {vs : Option (List Nat)} {g : Format}
    (h : Decoder.huffmanFormat ls vs = .ok g) : g.definite = true := by
  obtain ⟨codes, h0, h1⟩ := Panicky.bind_eq_ok.1 h
  cases h1
  clear h h0
  simp only [Format.definite]
  induction codes with
  | nil => rfl
  | cons c codes ih =>
    simp only [List.map_cons, Format.allDefinite, ih, Bool.and_true, Decoder.huffmanBranch, Format.definite]
    generalize c.1 = bits
    induction bits with
    | nil => rfl
    | cons b bits ih2 => simp only [List.map_cons, Format.allDefinite, ih2, Format.definite, Bool.and_true]

section
set_option linter.unusedSectionVars false
variable {m : Module} {rej : Format → Scope Format → ReadCtxt → Prop}
  (hm : ∀ (i : Nat) (it : Item), m.items[i]? = some it → it.format.definite = true)
  (rej' : Format → Scope Format → ReadCtxt → Prop)
include hm

mutual
private theorem change : ∀ {f s c v c' k}, Parses m rej f s c v c' k → f.definite = true → ScopeDefinite s →
    Parses m rej' f s c v c' k
  | _, _, _, _, _, _, .itemVar h1 h2 h3 h4, _, _ =>
    .itemVar h1 h2 h3 (change h4 (hm _ _ h1) (.multi _))
  | _, _, _, _, _, _, .endOfInput h, _, _ => .endOfInput h
  | _, _, _, _, _, _, .align h1 h2 h3 h4 h5, _, _ => .align h1 h2 h3 h4 h5
  | _, _, _, _, _, _, .byte h1 h2, _, _ => .byte h1 h2
  | _, _, _, _, _, _, .variant h, hd, hs => .variant (change h hd hs)
  | _, _, _, _, _, _, .union h1 h2, hd, hs => .union h1 (change h2 (allDefinite_get hd h1) hs)
  | _, _, _, _, _, _, .unionNondet _ _ _, hd, _ => by cases hd
  | _, _, _, _, _, _, .tuple h, hd, hs => .tuple (changeF h hd hs)
  | _, _, _, _, _, _, .sequence h, hd, hs => .sequence (changeF h hd hs)
  | _, _, _, _, _, _, .repeat_ h, hd, hs => .repeat_ (changeM h hd hs)
  | _, _, _, _, _, _, .repeat1 h h1, hd, hs => .repeat1 (changeM h hd hs) h1
  | _, _, _, _, _, _, .repeatCount h1 h h2, hd, hs => .repeatCount h1 (changeM h hd hs) h2
  | _, _, _, _, _, _, .repeatBetween h1 h2 h h3 h4, hd, hs => .repeatBetween h1 h2 (changeM h hd hs) h3 h4
  | _, _, _, _, _, _, .repeatUntilLast h h1 h2, hd, hs => .repeatUntilLast (changeM h hd hs) h1 h2
  | _, _, _, _, _, _, .repeatUntilSeq h h1 h2 h3, hd, hs => .repeatUntilSeq (changeM h hd hs) h1 h2 h3
  | _, _, _, _, _, _, .accumUntil h1 h h2, hd, hs => .accumUntil h1 (changeM h hd hs) h2
  | _, _, _, _, _, _, .forEach h1 h, hd, hs => .forEach h1 (changeE h hd hs)
  | _, _, _, _, _, _, .maybe_some h1 h, hd, hs => .maybe_some h1 (change h hd hs)
  | _, _, _, _, _, _, .maybe_none h, _, _ => .maybe_none h
  | _, _, _, _, _, _, .peek h, hd, hs => .peek (change h hd hs)
  | _, _, _, _, _, _, .peekNot _, hd, _ => by cases hd
  | _, _, _, _, _, _, .slice h1 h2 h, hd, hs => .slice h1 h2 (change h hd hs)
  | _, _, _, _, _, _, .bits h1 h, hd, hs => .bits h1 (change h hd hs)
  | _, _, _, _, _, _, .withRelativeOffset h1 h2 h3 h, hd, hs => .withRelativeOffset h1 h2 h3 (change h hd hs)
  | _, _, _, _, _, _, .map h h1, hd, hs => .map (change h hd hs) h1
  | _, _, _, _, _, _, .where_ h h1, hd, hs => .where_ (change h hd hs) h1
  | _, _, _, _, _, _, .where_lenient h h1, hd, hs => .where_lenient (change h hd hs) h1
  | _, _, _, _, _, _, .compute h, _, _ => .compute h
  | _, _, _, _, _, _, .let_ h1 h, hd, hs => .let_ h1 (change h hd (hs.single _ _))
  | _, _, _, _, _, _, .match_ h1 h2 h3 h4 h, hd, hs =>
    .match_ h1 h2 h3 h4 (change h (branchesDefinite_get hd h2) (hs.withBindings _))
  | _, _, _, _, _, _, .dynamic h1 h2 h, hd, hs => .dynamic h1 h2 (change h hd (hs.decoder _ (huffman_definite h2)))
  | _, _, _, _, _, _, .apply h1 h, _, hs => .apply h1 (change h (hs _ _ h1) hs)
  | _, _, _, _, _, _, .pos, _, _ => .pos
  | _, _, _, _, _, _, .skipRemainder, _, _ => .skipRemainder
  | _, _, _, _, _, _, .decodeBytes h1 h2 h h3, hd, hs => .decodeBytes h1 h2 (change h hd hs) h3
  | _, _, _, _, _, _, .decodeBytes_trailing h1 h2 h h3, hd, hs => .decodeBytes_trailing h1 h2 (change h hd hs) h3
  | _, _, _, _, _, _, .letFormat h1 h2, hd, hs =>
    have hd := (Bool.and_eq_true _ _).mp hd
    .letFormat (change h1 hd.1 hs) (change h2 hd.2 (hs.single _ _))
  | _, _, _, _, _, _, .monadSeq h1 h2, hd, hs =>
    have hd := (Bool.and_eq_true _ _).mp hd
    .monadSeq (change h1 hd.1 hs) (change h2 hd.2 hs)
  | _, _, _, _, _, _, .hint h, hd, hs => .hint (change h hd hs)
  | _, _, _, _, _, _, .liftedNone, _, _ => .liftedNone
  | _, _, _, _, _, _, .liftedSome h, hd, hs => .liftedSome (change h hd hs)
  | _, _, _, _, _, _, .letView h, hd, hs => .letView (change h hd (hs.view _ _))
  | _, _, _, _, _, _, .captureBytes h1 h2 h3, _, _ => .captureBytes h1 h2 h3
  | _, _, _, _, _, _, .readArray h1 h2 h3 h4, _, _ => .readArray h1 h2 h3 h4
  | _, _, _, _, _, _, .reifyView h, _, _ => .reifyView h
  | _, _, _, _, _, _, .parseFromView h1 h, hd, hs => .parseFromView h1 (change h hd hs)
  | _, _, _, _, _, _, .phantom, _, _ => .phantom
  | _, _, _, _, _, _, .enforce h, hd, hs => .enforce (change h hd hs)
  | _, _, _, _, _, _, .permit _, hd, _ => by cases hd
  | _, _, _, _, _, _, .permit_fallback _ _, hd, _ => by cases hd

private theorem changeF : ∀ {fs s c vs c' k}, ParsesFields m rej fs s c vs c' k → Format.allDefinite fs = true →
    ScopeDefinite s → ParsesFields m rej' fs s c vs c' k
  | _, _, _, _, _, _, .fnil, _, _ => .fnil
  | _, _, _, _, _, _, .fcons h1 h2, hd, hs =>
    have hd := (Bool.and_eq_true _ _).mp hd
    .fcons (change h1 hd.1 hs) (changeF h2 hd.2 hs)

private theorem changeM : ∀ {f s c vs c' k}, ParsesMany m rej f s c vs c' k → f.definite = true →
    ScopeDefinite s → ParsesMany m rej' f s c vs c' k
  | _, _, _, _, _, _, .mnil, _, _ => .mnil
  | _, _, _, _, _, _, .mcons h1 h2, hd, hs => .mcons (change h1 hd hs) (changeM h2 hd hs)

private theorem changeE : ∀ {l f s is c vs c' k}, ParsesEach m rej l f s is c vs c' k → f.definite = true →
    ScopeDefinite s → ParsesEach m rej' l f s is c vs c' k
  | _, _, _, _, _, _, _, _, .enil, _, _ => .enil
  | _, _, _, _, _, _, _, _, .econs h1 h2, hd, hs => .econs (change h1 hd (hs.single _ _)) (changeE h2 hd hs)
end
end

/-- For formats without negative conditions, in modules without them, the result is a derivation outright
(nothing is ever taken to be rejected). -/
theorem C11_sound_definite [DecidableEq Next] (m : Module) (o : BuildOpts) (cfuel : Nat) (f : Format)
    (prog : List Decoder) (hm : ∀ (i : Nat) (it : Item), m.items[i]? = some it → it.format.definite = true)
    (hf : f.definite = true) (hp : compileProgram m o cfuel f = .ok prog) (fuel : Nat) (c : ReadCtxt)
    (w : Parsed) (h : Decoder.run (env o prog) fuel c = .ok w) :
    Parses m (fun _ _ _ => False) f .empty c w.value.1 w.value.2 w.errs.length := by
  obtain ⟨M, hM⟩ := C11_sound_partial m o cfuel f prog hp fuel c w h
  exact change hm _ hM hf (fun _ _ h => by cases h)

/-- an item `Byte [0,9]`-like module and a repetition of calls, to run the theorem on -/
private def demoModule : Module := ⟨[⟨[], [], .byte (ByteSet.fromIter [1, 2])⟩]⟩
private def demo : Format := .tuple [.repeat_ (.itemVar 0 [] []), .byte (ByteSet.fromIter [9])]
private def demoOpts : BuildOpts := ⟨fun _ l => l, 20⟩

example : ∃ (_ : DecidableEq Next) (prog : List Decoder) (w : Parsed),
    (∀ (i : Nat) (it : Item), demoModule.items[i]? = some it → it.format.definite = true) ∧ demo.definite = true ∧
    compileProgram demoModule demoOpts 5 demo = .ok prog ∧
    Decoder.run (env demoOpts prog) 20 ⟨[1, 2, 9, 7], 0⟩ = .ok w ∧ w.value.2.offset = 3 := by
  refine ⟨fun _ _ => Classical.propDecidable _, _, _, ?_, rfl, rfl, rfl, rfl⟩
  intro i it h
  match i with
  | 0 => cases h; rfl
  | i + 1 => simp [demoModule] at h

/-- What follows `PeekNot` on the example below: `Union [Slice 2 (Repeat {1}), Tuple [{1}, {2}]]`. -/
private def sliced : Format :=
  .union [.slice (.lit .b8 (Fin.ofNat _ 2)) (.repeat_ (.byte (ByteSet.fromIter [1]))),
    .tuple [.byte (ByteSet.fromIter [1]), .byte (ByteSet.fromIter [2])]]

/-- The full claim with "rejected" read as "has no derivation" does not hold of the code: a compiled
`PeekNot f` succeeds at a position where `f` has a derivation, because the lookahead tree of a union with
a slice rejects input that the slice would accept. -/
theorem C11_peekNot_refuted :
    ∃ (_ : DecidableEq Next) (f : Format) (o : BuildOpts) (prog : List Decoder) (c : ReadCtxt) (w : Parsed)
      (v : Value) (c' : ReadCtxt), f.definite = true ∧ o.ord.Valid ∧
      compileProgram .empty o 5 (.peekNot f) = .ok prog ∧ Decoder.run (env o prog) 20 c = .ok w ∧
      Parses .empty (fun _ _ _ => False) f .empty c v c' 0 := by
  refine ⟨fun _ _ => Classical.propDecidable _, sliced, demoOpts, _, ⟨[3, 3], 0⟩, _, .branch 0 (.seq (.strict [])), ⟨[3, 3], 2⟩, rfl,
    fun _ _ _ => Iff.rfl, rfl, rfl, ?_⟩
  exact .union (i := 0) rfl (.slice (n := 2) ⟨_, rfl, rfl⟩ (by decide) (.repeat_ .mnil))

end Doodle
