import Verif.Lemmas.LocDecode
import Verif.Lemmas.LocatedParse

/-! Property C25: decoding with locations against decoding without. -/

namespace Doodle
namespace Loc

/-- The same program, run with and without locations on the same input, succeeds with the same value, rest of the input and non-critical errors, or fails with the same error, or panics both times.
The condition is that no decoder treats one of the features of `Uses` differently. -/
theorem C25_agree_partial (u : Uses) (env : Env) (henv : CommonEnv u env) (fuel : Nat) (c : ReadCtxt)
    (hc : c.offset ≤ c.input.length) :
    SameResult (LocDecoder.run env fuel c) (Decoder.run env fuel c) := by
  have key : ORel (PR u) (LocDecoder.run env fuel c) (Decoder.run env fuel c) := by
    unfold LocDecoder.run Decoder.run
    cases hk : env.program[0]? with
    | none => trivial
    | some d => exact parse_rel env henv fuel d (henv.1 d (List.mem_of_getElem? hk)) .empty c hc
  obtain ⟨a, b, h1, h2, h3⟩ | ⟨e, e', h1, h2, h3⟩ | ⟨h1, h2⟩ | ⟨h1, h2⟩ := key.both
  · rw [h1, h2]; exact ⟨h3.val.erase, h3.pos, h3.errs.sameErr⟩
  · rw [h1, h2]; exact h3
  · rw [h1, h2]; trivial
  · rw [h1, h2]; trivial

/-! ### A decoder that meets the hypotheses -/

/-- a count byte, that many pairs of an alternative and a checked byte, all in a record -/
def demo : Decoder :=
  .letFormat (.byte .full) "n"
    (.letFormat
      (.repeatCount (.var "n")
        (.tuple [.parallel [.byte (.singleton 1), .byte .full],
          .where_ (.byte .full) (.lambda "b" (.intRel .gt (.var "b") (.var "n"))) false]))
      "xs"
      (.compute (.record [("n", .var "n"), ("xs", .var "xs"), ("len", .seqLength (.var "xs"))])))

def demoEnv : Env := ⟨[demo], fun _ => .panic⟩

/-- alternatives, and nothing else that is special -/
def demoUses : Uses := ⟨true, false, false, false⟩

theorem demo_common : CommonEnv demoUses demoEnv := by
  refine ⟨fun d hd => ?_, fun f d h => by cases h⟩
  simp only [demoEnv, List.mem_singleton] at hd
  subst hd
  simp [demo, demoUses, Common, CommonAll, CommonExpr, CommonBound, CommonFields, Builds]

example : SameResult (LocDecoder.run demoEnv 20 (.new [2, 1, 5, 9, 0]))
    (Decoder.run demoEnv 20 (.new [2, 1, 5, 9, 0])) :=
  C25_agree_partial demoUses demoEnv demo_common 20 _ (Nat.zero_le _)

/-- the run is a success, with one non-critical error -/
example : ∃ w, Decoder.run demoEnv 20 (.new [2, 1, 5, 9, 0]) = .ok w ∧ w.value.2.offset = 5 ∧ w.errs.length = 1 :=
  ⟨_, rfl, rfl, rfl⟩

/-! ### Each condition is needed -/

/-- a program of one decoder -/
def prog (d : Decoder) : Env := ⟨[d], fun _ => .panic⟩

/-- the byte literal -/
def byteLit (n : Fin 256) : Expr := .lit .b8 n

/-- Where `Compute` names the result of an alternative, the two decoders yield different values. -/
theorem C25_wrapped_refuted : ∃ env c fuel w w', LocDecoder.run env fuel c = .ok w ∧
    Decoder.run env fuel c = .ok w' ∧ w.value.1.erase = .branch 0 (.u8 7) ∧ w'.value.1 = .u8 7 :=
  ⟨prog (.letFormat (.parallel [.byte .full]) "x" (.compute (.var "x"))), .new [7], 9, _, _, rfl, rfl, rfl, rfl⟩

/-- `ForEach` over the result of an alternative: plain decoding succeeds, with locations it panics. -/
theorem C25_forEach_refuted : ∃ env c fuel w, LocDecoder.run env fuel c = .panic ∧
    Decoder.run env fuel c = .ok w :=
  ⟨prog (.letFormat (.parallel [.repeatCount (byteLit 1) (.byte .full)]) "xs"
      (.forEach (.var "xs") "x" (.byte .full))), .new [7, 8], 9, _, rfl, rfl⟩

/-- `Compute` of the result of an alternative inside a tuple that is then matched: plain decoding succeeds, with
locations it panics. -/
theorem C25_letWrapped_refuted : ∃ env c fuel w, LocDecoder.run env fuel c = .panic ∧
    Decoder.run env fuel c = .ok w :=
  ⟨prog (.letFormat (.parallel [.byte .full]) "x" (.letFormat (.compute (.var "x")) "y"
      (.letFormat (.tuple [.compute (.var "y")]) "t"
        (.match_ (.var "t") [(.tuple [.lit .b8 7], .byte .full)])))), .new [7, 8], 9, _, rfl, rfl⟩

/-- A record expression without fields: plain decoding succeeds, with locations it panics. -/
theorem C25_emptyRecord_refuted : ∃ env c fuel w, LocDecoder.run env fuel c = .panic ∧
    Decoder.run env fuel c = .ok w :=
  ⟨prog (.compute (.record [])), .new [], 9, _, rfl, rfl⟩

/-- Matching on the default of `Permit`: plain decoding succeeds, with locations it panics. -/
theorem C25_permit_refuted : ∃ env c fuel w, LocDecoder.run env fuel c = .panic ∧
    Decoder.run env fuel c = .ok w :=
  ⟨prog (.letFormat (.permit .fail (.bool true)) "x" (.match_ (.var "x") [(.bool true, .byte .full)])),
    .new [7], 9, _, rfl, rfl⟩

/-- Matching a numeric expression against a machine integer: plain decoding succeeds, with locations it
panics. -/
theorem C25_numeric_refuted : ∃ env c fuel w, LocDecoder.run env fuel c = .panic ∧
    Decoder.run env fuel c = .ok w :=
  ⟨prog (.match_ (.numeric (.const ⟨5, .concrete Num.U8⟩)) [(.lit .b8 5, .byte .full)]), .new [7], 9, _, rfl, rfl⟩

/-- A character from an element of a range: plain decoding succeeds, with locations it panics. -/
theorem C25_rangeChar_refuted : ∃ env c fuel w, LocDecoder.run env fuel c = .panic ∧
    Decoder.run env fuel c = .ok w :=
  ⟨prog (.compute (.asChar (.seqIx (.enumFromTo (byteLit 65) (byteLit 70)) (byteLit 0)))), .new [], 9, _, rfl, rfl⟩

/-- Folding over a range: plain decoding panics, with locations it succeeds. -/
theorem C25_rangeFold_refuted : ∃ env c fuel w, LocDecoder.run env fuel c = .ok w ∧
    Decoder.run env fuel c = .panic :=
  ⟨prog (.compute (.leftFold (.lambda "p" (.tupleProj (.var "p") 0)) (byteLit 0) .any
      (.enumFromTo (byteLit 1) (byteLit 3)))), .new [], 9, _, rfl, rfl⟩

/-- A repeated element is written out by decoding with locations: the values are not literally the same. -/
theorem C25_dup_refuted : ∃ env c fuel w w', LocDecoder.run env fuel c = .ok w ∧
    Decoder.run env fuel c = .ok w' ∧ w.value.1.erase = .seq (.strict [.u8 7, .u8 7]) ∧
    w'.value.1 = .seq (.dup 2 (.u8 7)) :=
  ⟨prog (.compute (.dup (byteLit 2) (byteLit 7))), .new [], 9, _, _, rfl, rfl, rfl, rfl⟩

/-! ### Locations -/

/-- Every location recorded by decoding, at every depth of the value, lies within the input consumed.  The
conditions: everything is decoded where the input is consumed, from the input itself, and a record is built
from values that were decoded one after the other. -/
theorem C25_consumed_partial (calls : Nat → Bool) (env : Env) (henv : TidyEnv false calls env) (fuel : Nat)
    (c : ReadCtxt) (hc : c.offset ≤ c.input.length) (w : LocParsed) (h : LocDecoder.run env fuel c = .ok w) :
    w.value.1.Within c.offset w.value.2.offset := by
  unfold LocDecoder.run at h
  obtain ⟨d, h1, h⟩ := Outcome.bind_eq_ok.1 h
  have h1 := unwrap_eq_ok (Outcome.ofPanicky_eq_ok.1 h1)
  have r := parse_within (free := false) (calls := calls) (U := fun o => o) (lo := c.offset) (M := c.input.length)
    ⟨fun o _ => Nat.le_refl o, fun _ _ h => h, fun h => by cases h⟩ henv fuel d [] .empty c c.offset w
    (henv.1 d (List.mem_of_getElem? h1)) .empty hc (Nat.le_refl _) (Nat.le_refl _) (Nat.le_refl _) h
  exact r.vals

/-- If decoding may also look ahead, seek and use views, every recorded location still lies within the input. -/
theorem C25_buffer_partial (calls : Nat → Bool) (env : Env) (henv : TidyEnv true calls env) (fuel : Nat)
    (c : ReadCtxt) (hc : c.offset ≤ c.input.length) (w : LocParsed) (h : LocDecoder.run env fuel c = .ok w) :
    w.value.1.Within 0 c.input.length := by
  unfold LocDecoder.run at h
  obtain ⟨d, h1, h⟩ := Outcome.bind_eq_ok.1 h
  have h1 := unwrap_eq_ok (Outcome.ofPanicky_eq_ok.1 h1)
  have r := parse_within (free := true) (calls := calls) (U := fun _ => c.input.length) (lo := 0)
    (M := c.input.length) ⟨fun o h => h, fun _ _ _ => Nat.le_refl _, fun _ => ⟨rfl, fun _ => rfl⟩⟩ henv fuel d []
    .empty c c.offset w (henv.1 d (List.mem_of_getElem? h1)) .empty hc (Nat.le_refl _) (Nat.zero_le _)
    (Nat.le_refl _) h
  exact r.vals

/-- a record of a nested record and a list, decoded through a call -/
def demo2 : Env :=
  ⟨[.letFormat (.call 1 [] []) "p" (.letFormat (.repeatCount (.recordProj (.var "p") "n") (.byte .full)) "xs"
      (.compute (.record [("p", .var "p"), ("xs", .var "xs"), ("len", .seqLength (.var "xs"))]))),
    .letFormat (.byte .full) "n" (.monadSeq (.byte .full) (.letFormat (.byte .full) "m"
      (.compute (.record [("n", .var "n"), ("m", .var "m")]))))], fun _ => .panic⟩

theorem demo2_tidy : TidyEnv false (fun _ => true) demo2 := by
  refine ⟨?_, ?_, fun f d h => (by cases h)⟩
  · intro d hd
    simp only [demo2, List.mem_cons, List.not_mem_nil, or_false] at hd
    rcases hd with rfl | rfl <;> decide +kernel
  · intro k d _ hk
    have hd := List.mem_of_getElem? hk
    simp only [demo2, List.mem_cons, List.not_mem_nil, or_false] at hd
    rcases hd with rfl | rfl <;> decide +kernel

example : ∃ w, LocDecoder.run demo2 20 (.new [2, 0, 7, 5, 6, 9]) = .ok w ∧ w.value.2.offset = 5 ∧
    w.value.1.getLoc = .inBuffer 0 4 ∧ w.value.1.Within 0 5 :=
  ⟨_, rfl, rfl, rfl, C25_consumed_partial _ demo2 demo2_tidy 20 (.new [2, 0, 7, 5, 6, 9]) (Nat.zero_le _) _ rfl⟩

/-- a view of the input, looked at ahead of decoding -/
def demo3 : Env :=
  ⟨[.letView "v" (.letFormat (.captureBytes (.offset (.var "v") (byteLit 1)) (byteLit 2)) "xs"
      (.letFormat (.peek (.byte .full)) "a" (.tuple [.compute (.var "xs"), .compute (.var "a"), .byte .full])))],
    fun _ => .panic⟩

theorem demo3_tidy : TidyEnv true (fun _ => true) demo3 := by
  refine ⟨?_, ?_, fun f d h => (by cases h)⟩
  · intro d hd
    simp only [demo3, List.mem_cons, List.not_mem_nil, or_false] at hd
    subst hd; decide +kernel
  · intro k d _ hk
    have hd := List.mem_of_getElem? hk
    simp only [demo3, List.mem_cons, List.not_mem_nil, or_false] at hd
    subst hd; decide +kernel

example : ∃ w, LocDecoder.run demo3 20 (.new [2, 0, 7]) = .ok w ∧ w.value.1.Within 0 3 :=
  ⟨_, rfl, C25_buffer_partial _ demo3 demo3_tidy 20 (.new [2, 0, 7]) (Nat.zero_le _) _ rfl⟩

/-! The conditions are needed. -/

/-- The location of a record of a byte looked at and the same byte decoded is longer than the input. -/
theorem C25_recordLocation_refuted : ∃ env c fuel w, LocDecoder.run env fuel c = .ok w ∧
    c.input.length = 1 ∧ w.value.1.getLoc = .inBuffer 0 2 :=
  ⟨prog (.letFormat (.peek (.byte .full)) "a" (.letFormat (.byte .full) "b"
    (.compute (.record [("a", .var "a"), ("b", .var "b")])))), .new [7], 9, _, rfl, rfl, rfl⟩

/-- So is that of a record that names a value twice. -/
theorem C25_doubledField_refuted : ∃ env c fuel w, LocDecoder.run env fuel c = .ok w ∧
    c.input.length = 1 ∧ w.value.1.getLoc = .inBuffer 0 2 :=
  ⟨prog (.letFormat (.byte .full) "a"
    (.compute (.record [("a", .var "a"), ("b", .var "a")]))), .new [7], 9, _, rfl, rfl, rfl⟩

/-- Locations inside `Bits` count bits: they are not in the input. -/
theorem C25_bitsLocation_refuted : ∃ env c fuel w, LocDecoder.run env fuel c = .ok w ∧
    c.input.length = 1 ∧ w.value.2.offset = 1 ∧ w.value.1.getLoc = .inBuffer 0 8 :=
  ⟨prog (.bits (.repeatCount (byteLit 8) (.byte .full))), .new [7], 12, _, rfl, rfl, rfl, rfl⟩

/-- A value looked at lies outside the input consumed. -/
theorem C25_peekLocation_refuted : ∃ env c fuel w, LocDecoder.run env fuel c = .ok w ∧
    w.value.2.offset = 0 ∧ w.value.1.getLoc = .inBuffer 0 1 :=
  ⟨prog (.peek (.byte .full)), .new [7], 9, _, rfl, rfl, rfl⟩

/-- The location of a repetition until a condition on the sequence has length 0, whatever was decoded. -/
theorem C25_untilSeqLocation_refuted : ∃ env c fuel w, LocDecoder.run env fuel c = .ok w ∧
    w.value.2.offset = 2 ∧ w.value.1.getLoc = .inBuffer 0 0 :=
  ⟨prog (.repeatUntilSeq (.lambda "xs" (.intRel .eq (.seqLength (.var "xs")) (.lit .b32 2))) (.byte .full)),
    .new [7, 8], 9, _, rfl, rfl, rfl⟩

end Loc
end Doodle
