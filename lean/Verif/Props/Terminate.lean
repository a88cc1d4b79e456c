import Verif.Lemmas.Terminate
import Verif.Lemmas.HuffmanTree
import Verif.Lemmas.FuelMono
import Verif.Props.Consume

/-! Property C14: decoding terminates, and every iteration of an accepted repetition consumes.

In the model a run that does not return is one that runs out of every bound on the recursion depth and the
number of iterations (`Outcome.fuel`).  `C14_fuel` says that the bound is not observable otherwise.  The
claim fails for bodies whose static bounds are wrong (`Permit`, C08) and for the loops ended by a condition,
for which the compiler does not check the body; both are refuted below. -/

namespace Doodle

open Grammar Compiler

/-- A run that ends, ends in the same way whatever the bound. -/
theorem C14_fuel (env : Env) (n k : Nat) (c : ReadCtxt) (h : Decoder.run env n c ≠ .fuel) :
    Decoder.run env (n + k) c = Decoder.run env n c := by
  induction k with
  | zero => rfl
  | succ k ih =>
    rw [← ih]
    have hle : (Decoder.run env (n + k) c).le (Decoder.run env (n + (k + 1)) c) :=
      Outcome.le_bind (Outcome.le_refl _) fun d => Decoder.parse_le env (n + k) d .empty c
    exact hle (by rw [ih]; exact h)

/-- Every compiled program whose loop bodies have right bounds, and whose loops that are ended by a
condition have bodies that are not nullable, ends on every input. -/
theorem C14_terminates_partial [DecidableEq Next] (m : Module) (hm : m.LoopsMove) (o : BuildOpts)
    (ho : o.ord.Valid) (hfuel : 6 ≤ o.fuel) (cfuel : Nat) (f : Format) (hf : f.LoopsMove m m.items.length)
    (prog : List Decoder) (hp : compileProgram m o cfuel f = .ok prog) (c : ReadCtxt) (hc : c.Inside) :
    ∃ N, Decoder.run (env o prog) N c ≠ .fuel ∧ ∀ n, N ≤ n → Decoder.run (env o prog) n c = Decoder.run (env o prog) N c := by
  obtain ⟨M, ⟨d, hd, hcomp⟩, hM⟩ := compileProgram_spec m o cfuel f prog hp
  have P : Terminate.Prog m o M (env o prog) := by
    refine ⟨linked hM, ?_, ?_, ?_⟩
    · intro level next k it hi hk
      obtain ⟨it', d, h1, h2, h3⟩ := hM level next k hk
      rw [hi] at h1
      cases h1
      exact ⟨d, h2, h3⟩
    · intro ls vs g hg
      exact HuffmanTree.compile_ends ho hfuel hg
    · intro ls vs g d hg hd
      obtain ⟨M', hM'⟩ := compileOne_spec o g d hd
      exact HuffmanTree.huffman_ends hg hM'
  obtain ⟨N, r, hr, hN⟩ := Terminate.ends_all P hm _ hcomp hf .empty hc
  have hrun : ∀ n, Decoder.run (env o prog) n c = Decoder.parse (env o prog) n d .empty c := by
    intro n
    change (do let d ← Outcome.ofPanicky (Panicky.unwrap prog[0]?); Decoder.parse (env o prog) n d .empty c) = _
    rw [hd]
    rfl
  refine ⟨N, ?_, fun n hn => ?_⟩
  · rw [hrun]; exact fun h => hr ((hN N (Nat.le_refl _)).symm.trans h)
  · rw [hrun, hrun]; exact (hN n hn).trans (hN N (Nat.le_refl _)).symm

/-- Every item of an accepted repetition consumes: there are at most as many items as bytes consumed. -/
theorem C14_repeat_partial [DecidableEq Next] (m : Module) (o : BuildOpts) (cfuel : Nat) (f : Format)
    (hf : f.BoundsSafe m) (prog : List Decoder) (hp : compileProgram m o cfuel (.repeat_ f) = .ok prog)
    (fuel : Nat) (c : ReadCtxt) (hc : c.Inside) (w : Parsed) (h : Decoder.run (env o prog) fuel c = .ok w) :
    ∃ vs, w.value.1 = .seq (.strict vs) ∧ c.offset + vs.length ≤ w.value.2.offset := by
  obtain ⟨_, ⟨d, _, hcomp⟩, _⟩ := compileProgram_spec m o cfuel _ prog hp
  obtain ⟨M, hM⟩ := C11_sound_partial m o cfuel _ prog hp fuel c w h
  revert hM
  generalize w.value.1 = v, w.value.2 = c', w.errs.length = k
  intro hM
  cases hM with
  | repeat_ hM =>
    refine ⟨_, rfl, ?_⟩
    cases hcomp with
    | repeat_ hn _ _ =>
      obtain ⟨b, hb, hn⟩ := Panicky.bind_eq_ok.1 hn
      have h0 : ¬ b.min = 0 := by simpa using Panicky.ok.inj hn
      obtain ⟨n, hn, hlo, _⟩ := Consume.consumesM hM _ b hb hf (fun x g hg => by cases hg) hc
      have := Nat.le_trans (Nat.le_mul_of_pos_right _ (Nat.pos_of_ne_zero h0)) hlo
      omega

/-- the same for `Repeat1` -/
theorem C14_repeat1_partial [DecidableEq Next] (m : Module) (o : BuildOpts) (cfuel : Nat) (f : Format)
    (hf : f.BoundsSafe m) (prog : List Decoder) (hp : compileProgram m o cfuel (.repeat1 f) = .ok prog)
    (fuel : Nat) (c : ReadCtxt) (hc : c.Inside) (w : Parsed) (h : Decoder.run (env o prog) fuel c = .ok w) :
    ∃ vs, w.value.1 = .seq (.strict vs) ∧ vs ≠ [] ∧ c.offset + vs.length ≤ w.value.2.offset := by
  obtain ⟨_, ⟨d, _, hcomp⟩, _⟩ := compileProgram_spec m o cfuel _ prog hp
  obtain ⟨M, hM⟩ := C11_sound_partial m o cfuel _ prog hp fuel c w h
  revert hM
  generalize w.value.1 = v, w.value.2 = c', w.errs.length = k
  intro hM
  cases hM with
  | repeat1 hM hne =>
    refine ⟨_, rfl, hne, ?_⟩
    cases hcomp with
    | repeat1 hn _ _ =>
      obtain ⟨b, hb, hn⟩ := Panicky.bind_eq_ok.1 hn
      have h0 : ¬ b.min = 0 := by simpa using Panicky.ok.inj hn
      obtain ⟨n, hn, hlo, _⟩ := Consume.consumesM hM _ b hb hf (fun x g hg => by cases hg) hc
      have := Nat.le_trans (Nat.le_mul_of_pos_right _ (Nat.pos_of_ne_zero h0)) hlo
      omega

/-- records of a length byte, that many bytes, and an item of the module, until a zero -/
private def chunks : Format :=
  .tuple [.repeat_ (.letFormat (.byte (ByteSet.fromIter [1, 2])) "n"
      (.tuple [.repeatCount (.asNum .b8 (.var "n")) (.byte (ByteSet.fromIter [7])), .itemVar 0 [] []])),
    .repeatUntilLast (.lambda "x" (.intRel .eq (.asNum .b8 (.var "x")) (.lit .b8 0))) (.byte (ByteSet.fromIter [0, 3]))]

private def chunksModule : Module := ⟨[⟨[], [], .repeat1 (.byte (ByteSet.fromIter [9]))⟩]⟩

example : ∃ (_ : DecidableEq Next) (prog : List Decoder) (w : Parsed), chunksModule.LoopsMove ∧
    chunks.LoopsMove chunksModule chunksModule.items.length ∧
    compileProgram chunksModule ⟨fun _ l => l, 20⟩ 5 chunks = .ok prog ∧
    Decoder.run (env ⟨fun _ l => l, 20⟩ prog) 20 ⟨[1, 7, 9, 2, 7, 7, 9, 9, 3, 0, 0], 0⟩ = .ok w ∧
    w.value.2.offset = 10 := by
  refine ⟨fun _ _ => Classical.propDecidable _, _, _, ?_, ?_, by with_unfolding_all rfl, by with_unfolding_all rfl, by with_unfolding_all rfl⟩
  · intro i it h
    match i with
    | 0 => cases h; exact ⟨trivial, trivial⟩
    | i + 1 => simp [chunksModule] at h
  · simp only [chunks, Format.LoopsMove, Format.AllLoopsMove]
    refine ⟨⟨?_, trivial, trivial, ?_, trivial⟩, ⟨rfl, trivial, trivial⟩, trivial⟩
    · simp [chunksModule, Format.BoundsSafe, Format.BoundsSafeWith, Format.AllBoundsSafe, Format.ItemBoundsSafe,
        Expr.SpineSafe, OpSafe]
    · decide

/-- A repetition the compiler accepts and that never returns: the body is `Permit`, whose bounds ignore the
fallback. -/
theorem C14_permit_refuted : ∃ (_ : DecidableEq Next) (f : Format) (o : BuildOpts) (prog : List Decoder)
    (c : ReadCtxt), o.ord.Valid ∧ compileProgram .empty o 5 (.repeat_ f) = .ok prog ∧ c.Inside ∧
    ∀ fuel, Decoder.run (env o prog) fuel c = .fuel := by
  refine ⟨fun _ _ => Classical.propDecidable _,
    .permit (.tuple [.byte (ByteSet.fromIter [1]), .byte (ByteSet.fromIter [2])]) (.lit .b8 0),
    ⟨fun _ l => l, 20⟩, _, ⟨[1, 3], 0⟩, fun _ _ _ => Iff.rfl, rfl, Nat.zero_le _, ?_⟩
  have key : ∀ (env : Env) (t : MatchTree) (body : Decoder) (c : ReadCtxt), t.matches c = some 0 →
      (∀ n, Decoder.parse env n body .empty c = .fuel ∨
        ∃ w, Decoder.parse env n body .empty c = .ok w ∧ w.value.2 = c) →
      ∀ fuel, Decoder.parse env fuel (.while_ t body) .empty c = .fuel := by
    intro env t body c ht hb fuel
    cases fuel with
    | zero => rfl
    | succ n =>
      have loop : ∀ k (acc : Decoder.Acc), acc.value.2 = c →
          Decoder.whileLoop t (fun c => Decoder.parse env n body .empty c) k acc = .fuel := by
        intro k
        induction k with
        | zero => intros; rfl
        | succ k ih =>
          intro acc ha
          unfold Decoder.whileLoop
          rw [ha, ht]
          rcases hb n with h | ⟨w, h, hw⟩
          · simp only [h]; rfl
          · simp only [h]; exact ih _ hw
      have h := loop n (.new ([], c)) rfl
      change (do
        let acc ← Decoder.whileLoop t (fun c => Decoder.parse env n body .empty c) n (.new ([], c))
        (.ok (acc.map fun r => (.seq (.strict r.1), r.2)) : Outcome DecodeErr Parsed)) = .fuel
      rw [h]
      rfl
  intro fuel
  refine key _ _ _ _ ?_ ?_ fuel
  · rfl
  · intro n
    match n with
    | 0 => exact .inl rfl
    | 1 => exact .inl rfl
    | 2 => exact .inl rfl
    | n + 3 => exact .inr ⟨_, rfl, rfl⟩

/-- A loop ended by a condition that is never met, over a format that consumes nothing, is accepted and
never returns. -/
theorem C14_until_refuted : ∃ (_ : DecidableEq Next) (f : Format) (o : BuildOpts) (prog : List Decoder)
    (e : Expr), o.ord.Valid ∧ compileProgram .empty o 5 (.repeatUntilLast e f) = .ok prog ∧
    ∀ c fuel, Decoder.run (env o prog) fuel c = .fuel := by
  refine ⟨fun _ _ => Classical.propDecidable _, .compute (.lit .b8 0), ⟨fun _ l => l, 20⟩, _,
    .lambda "x" (.bool false), fun _ _ _ => Iff.rfl, rfl, ?_⟩
  intro c fuel
  cases fuel with
  | zero => rfl
  | succ n =>
    change (do
      let acc ← Decoder.untilDoneLoop _ (fun c => Decoder.parse _ n (.compute (.lit .b8 0)) .empty c) n (.new ([], c))
      (.ok _ : Outcome DecodeErr Parsed)) = .fuel
    have loop : ∀ env k (acc : Decoder.Acc),
        Decoder.untilDoneLoop (fun v _ => Decoder.lambdaBool (.lambda "x" (.bool false)) (Scope.empty : Scope Decoder) v)
          (fun c => Decoder.parse env n (.compute (.lit .b8 0)) .empty c) k acc = .fuel := by
      intro env k
      induction k with
      | zero => intros; rfl
      | succ k ih =>
        intro acc
        unfold Decoder.untilDoneLoop
        cases n with
        | zero => rfl
        | succ n => exact ih _
    exact congrArg (· >>= _) (loop _ n _)

end Doodle
