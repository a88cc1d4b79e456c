import Verif.Props.Formats
import Verif.Lemmas.PredictiveCheck

/-!
C12, C62: formats in which one byte decides every choice.  `Predictive` is in `Verif.Spec.Predictive`; the formats of a
module may call each other, and counts and conditions may depend on what was read before.
-/

namespace Doodle

open Grammar Compiler

namespace Predictive

section
variable [DecidableEq Next] (m : Module) (Φ : Nat → UInt8 → Prop) (o : BuildOpts) (tr sm : Bool) (hm : m.Predictive Φ tr sm)
  (ho : o.ord.Valid) (cfuel : Nat) (f : Format) (F : UInt8 → Prop) (hf : f.Predictive m Φ tr sm F)
  (prog : List Decoder) (hp : compileProgram m o cfuel f = .ok prog)

include hm ho hf hp

/-- Every derivation is found, if what comes after it is the end of the input or a byte that may follow the format: the
compiled decoder does not fail, panic or loop, and returns the derived value, the derived position, and one logged error for
each tolerated deviation. -/
theorem C12_predictive_partial (c c' : ReadCtxt) (v : Value) (k : Nat) (h : Parses m (fun _ _ _ => False) f .empty c v c' k)
    (hk : tr = true ∨ k = 0) (hz : sm = true → c.input.length < 2 ^ 64)
    (hn : ∀ b, c'.input[c'.offset]? = some b → F b) :
    ∃ N w, w.value = (v, c') ∧ w.errs.length = k ∧ ∀ n, N ≤ n → Decoder.run (env o prog) n c = .ok w := by
  obtain ⟨M, ⟨d, hd, hc⟩, hM⟩ := compileProgram_spec m o cfuel f prog hp
  have S : Setup m Φ o tr sm M (env o prog) := ⟨hm, ho, fun level next k it hi hk => by
    obtain ⟨it', d, h1, h2, h3⟩ := hM level next k hk
    rw [hi] at h1
    cases h1
    exact ⟨d, h2, h3⟩⟩
  obtain ⟨N, w, h1, h2, h3⟩ := found S (R := fun _ _ => True) (next := .empty) h hf (fun b hb => nomatch hb) hc .empty hk hz hn Goes.empty
  refine ⟨N, w, h2, h3, fun n hn => ?_⟩
  exact Outcome.bind_eq_ok.2 ⟨d, Outcome.ofPanicky_eq_ok.2 (Compiler.unwrap_eq_ok.2 hd), h1 n hn⟩

/-- Such derivations are unique: the format does not describe two values of the same input. -/
theorem C12_predictive_unique_partial (c c1 c2 : ReadCtxt) (v1 v2 : Value) (k1 k2 : Nat)
    (h1 : Parses m (fun _ _ _ => False) f .empty c v1 c1 k1) (h2 : Parses m (fun _ _ _ => False) f .empty c v2 c2 k2)
    (hk1 : tr = true ∨ k1 = 0) (hk2 : tr = true ∨ k2 = 0) (hz : sm = true → c.input.length < 2 ^ 64)
    (hn1 : ∀ b, c1.input[c1.offset]? = some b → F b) (hn2 : ∀ b, c2.input[c2.offset]? = some b → F b) :
    v1 = v2 ∧ c1 = c2 ∧ k1 = k2 := by
  obtain ⟨N, w, e1, e2, e3⟩ := C12_predictive_partial m Φ o tr sm hm ho cfuel f F hf prog hp c c1 v1 k1 h1 hk1 hz hn1
  obtain ⟨N', w', f1, f2, f3⟩ := C12_predictive_partial m Φ o tr sm hm ho cfuel f F hf prog hp c c2 v2 k2 h2 hk2 hz hn2
  have := (e3 (max N N') (by omega)).symm.trans (f3 (max N N') (by omega))
  cases this
  rw [e1] at f1
  cases f1
  exact ⟨rfl, rfl, e2.symm.trans f2⟩

end

/-! ## A case that meets the hypotheses

Item 0 is a digit, or `!`, a length byte and as many bytes; item 1 is a list of these in parentheses, item 2 a digit or such a
list.  The length is read from the input. -/

private def atom : Format := .union [
  .byte (ByteSet.fromIter [48, 49, 50]),
  .monadSeq (.byte (ByteSet.fromIter [33])) (.letFormat (.byte .full) "n" (.repeatCount (.var "n") (.byte .full)))]
private def group : Format := .tuple [.byte (ByteSet.fromIter [40]), .repeat_ (.itemVar 0 [] []), .byte (ByteSet.fromIter [41])]
private def lists : Module := ⟨[⟨[], [], atom⟩, ⟨[], [], group⟩, ⟨[], [], .union [.itemVar 0 [] [], .itemVar 1 [] []]⟩]⟩
private def T : Tables := ⟨[ByteSet.fromIter [48, 49, 50, 33], ByteSet.fromIter [40], ByteSet.fromIter [40, 48, 49, 50, 33]],
  [false, false, false], [.full, .full, .full]⟩

private theorem lists_tables : checkTables lists T = true := by decide +kernel

example : lists.Predictive (Φ T) true false ∧ (Format.repeat_ (.itemVar 2 [] [])).Predictive lists (Φ T) true false (fun b => b = 32) :=
  ⟨checkItems_sound lists_tables (by decide +kernel),
    check_sound (F' := ByteSet.fromIter [32]) lists_tables _ (fun b hb => by subst hb; decide +kernel) (by decide +kernel)⟩

private noncomputable def dec : DecidableEq Next := fun a b =>
  match a, b with
  | .empty, .empty => .isTrue rfl
  | _, _ => Classical.propDecidable _

set_option maxHeartbeats 2000000 in
/-- `(0!` `1` `)` `)` and then a space: the closing parenthesis after the length 1 is data. -/
example : (∃ (_ : DecidableEq Next) (prog : List Decoder),
    compileProgram lists ⟨fun _ l => l, 20⟩ 10 (.repeat_ (.itemVar 2 [] [])) = .ok prog) ∧ ∃ v,
    Parses lists (fun _ _ _ => False) (.repeat_ (.itemVar 2 [] [])) .empty ⟨[40, 48, 33, 1, 41, 41, 32], 0⟩ v ⟨[40, 48, 33, 1, 41, 41, 32], 6⟩ 0 := by
  refine ⟨⟨dec, _, rfl⟩, .seq (.strict [.branch 1 (.tuple [.u8 40, .seq (.strict [.branch 0 (.u8 48), .branch 1 (.seq (.strict [.u8 41]))]), .u8 41])]), ?_⟩
  have hb : ∀ {bs : ByteSet} {s : Scope Format} {i : Nat} {b : UInt8}, ([40, 48, 33, 1, 41, 41, 32] : List UInt8)[i]? = some b →
      bs.contains b = true → Parses lists (fun _ _ _ => False) (.byte bs) s ⟨[40, 48, 33, 1, 41, 41, 32], i⟩ (.u8 b)
        ⟨[40, 48, 33, 1, 41, 41, 32], i + 1⟩ 0 := fun h h' => .byte h h'
  refine .repeat_ (.mcons (k := 0) (k' := 0) (.itemVar rfl .nil .nil (.union (i := 1) rfl (.itemVar rfl .nil .nil
    (.tuple (.fcons (k := 0) (k' := 0) (hb rfl (by decide +kernel))
    (.fcons (k := 0) (k' := 0) (.repeat_ (.mcons (k := 0) (k' := 0) (.itemVar rfl .nil .nil (.union (i := 0) rfl (hb rfl (by decide +kernel))))
      (.mcons (k := 0) (k' := 0) (.itemVar rfl .nil .nil (.union (i := 1) rfl (.monadSeq (k := 0) (k' := 0) (hb rfl (by decide +kernel))
        (.letFormat (k := 0) (k' := 0) (hb rfl (by decide +kernel)) (.repeatCount (n := 1) ?_ ?_ rfl))))) .mnil)))
      (.fcons (k := 0) (k' := 0) (hb rfl (by decide +kernel)) .fnil))))))) .mnil)
  · exact ⟨.u8 1, rfl, rfl⟩
  · exact .mcons (k := 0) (k' := 0) (hb rfl (by decide +kernel)) .mnil

end Predictive

/-! ## Run-length encoding -/

namespace Formats.Rle

open Predictive

private def T : Tables := ⟨[.full, .full, .full, .full, ByteSet.fromIter [0, 1]], [false, true, false, true, false], [.full, .empty, .full, .empty, .empty]⟩

private theorem tables : checkTables alone T = true := by decide +kernel

/-- Every input that consists of a byte 0 or 1 and of runs is decoded, to what the runs stand for; nothing is logged and nothing
is left.  With `C62_rle_sound`: the inputs that are decoded to their end are exactly these. -/
theorem C62_rle_complete [DecidableEq Next] (o : BuildOpts) (ho : o.ord.Valid) (cfuel : Nat) (prog : List Decoder)
    (hp : compileProgram alone o cfuel (main 0) = .ok prog) (new : Bool) (rs : List (UInt8 × UInt8)) :
    ∃ N w, Expands w.value.1 (if new then "new-style" else "old-style") rs ∧ w.errs = [] ∧
      w.value.2.input.length = w.value.2.offset ∧
      ∀ n, N ≤ n → Decoder.run (env o prog) n ⟨(if new then 1 else 0) :: encode rs, 0⟩ = .ok w := by
  obtain ⟨v, h1, h2⟩ := C62_rle_derived [] [] (fun _ _ _ => False) .empty ⟨(if new then 1 else 0) :: encode rs, 0⟩ new rs [] (by simp)
  obtain ⟨N, w, e1, e2, e3⟩ := C12_predictive_partial alone (Φ T) o true false (checkItems_sound tables (by decide +kernel)) ho cfuel
    (main 0) (fun _ => False) (check_sound (F' := .empty) tables _ (fun _ h => h.elim) (by decide +kernel)) prog hp _ _ v 0 h1 (.inl rfl)
    (fun h => nomatch h) (fun b hb => by simp at hb)
  refine ⟨N, w, ?_, List.length_eq_zero_iff.1 e2, ?_, e3⟩
  · rw [e1]; exact h2
  · rw [e1]; simp

end Formats.Rle

end Doodle
