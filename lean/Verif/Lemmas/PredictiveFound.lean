import Verif.Lemmas.Predictive
import Verif.Lemmas.Sound

/-!
The main induction for C12 on formats where one byte of lookahead decides every choice: what the grammar derives is
what the compiled decoder finds.
-/

namespace Doodle
namespace Predictive

open Grammar Compiler Tree

section
variable {env : Env} {d : Decoder} {s' : Scope Decoder} {J : ReadCtxt → Nat → Prop} {c c' : ReadCtxt} {vs : List Value}
  {k : Nat}

/-! ## Loops -/

theorem addUsize_ok {a b : Nat} (h : a + b < usizeCard) : addUsize a b = .ok (a + b) := if_pos h

theorem done (h : Steps env d s' J c vs c' k) {P : Value → List Value → Panicky Bool} :
    ∀ acc : Decoder.Acc, acc.value.2 = c → vs ≠ [] →
    (∀ init v post, vs = init ++ v :: post → P v (acc.value.1 ++ init ++ [v]) = .ok post.isEmpty) →
    ∃ N acc', (∀ n j, N ≤ n → N ≤ j → Decoder.untilDoneLoop P (fun c => Decoder.parse env n d s' c) j acc = .ok acc') ∧
      Adds acc acc' vs c' k := by
  induction h with
  | nil _ => intro _ _ h; exact absurd rfl h
  | @cons c v c1 vs c2 k k' _ h1 hs ih =>
    intro acc hc _ hP
    obtain ⟨N, w, h2, h3, h4⟩ := h1
    have hP0 : P w.value.1 (acc.value.1 ++ [w.value.1]) = .ok vs.isEmpty := by
      have := hP [] v vs rfl
      rw [h3]; simpa using this
    by_cases hv : vs = []
    · subst hv
      cases hs with
      | nil _ =>
        refine ⟨N + 1, Decoder.push acc w, fun n j hn hj' => ?_, by simp [Decoder.push, h3], by simp [Decoder.push, h4]⟩
        obtain ⟨j, rfl⟩ : ∃ i, j = i + 1 := ⟨j - 1, by omega⟩
        simp only [Decoder.untilDoneLoop]
        exact Outcome.bind_eq_ok.2 ⟨w, by rw [hc]; exact h2 n (by omega), Outcome.bind_eq_ok.2 ⟨true,
          Outcome.ofPanicky_eq_ok.2 hP0, rfl⟩⟩
    · obtain ⟨N', acc', h5, h6⟩ := ih (Decoder.push acc w) (by simp [Decoder.push, h3]) hv fun init u post he => by
        have := hP (v :: init) u post (by rw [he]; rfl)
        simpa [Decoder.push, h3] using this
      refine ⟨max N N' + 1, acc', fun n j hn hj' => ?_, h6.cons h3 h4⟩
      obtain ⟨j, rfl⟩ : ∃ i, j = i + 1 := ⟨j - 1, by omega⟩
      simp only [Decoder.untilDoneLoop]
      refine Outcome.bind_eq_ok.2 ⟨w, by rw [hc]; exact h2 n (by omega), Outcome.bind_eq_ok.2 ⟨false,
          Outcome.ofPanicky_eq_ok.2 (by rw [hP0, List.isEmpty_eq_false_iff.2 hv]), ?_⟩⟩
      exact h5 n j (by omega) (by omega)

theorem accum {R : Format → Decoder → Prop} {s : Scope Format} (hr : ScopeRel R s s') {stop update : Expr}
    (h : Steps env d s' J c vs c' k) : ∀ {a : Value} {seen : List Value} {r : Value},
    AccumTo stop update s a seen vs r → ∀ acc : Decoder.Acc, acc.value = (seen, c) →
    ∃ N acc', (∀ n j, N ≤ n → N ≤ j →
      Decoder.accumLoop (fun accum vs => Decoder.lambdaBool stop s' (.tuple [accum, .seq (.strict vs)]))
        (fun accum v => update.evalLambda s' (.tuple [accum, v]))
        (fun c => Decoder.parse env n d s' c) j a acc = .ok (r, acc')) ∧ Adds acc acc' vs c' k := by
  induction h with
  | nil _ =>
    intro a seen r ha acc hc
    cases ha with
    | stop hd =>
      refine ⟨1, acc, fun n j _ hj => ?_, by simp [hc], by simp⟩
      obtain ⟨j, rfl⟩ : ∃ i, j = i + 1 := ⟨j - 1, by omega⟩
      simp only [Decoder.accumLoop]
      exact Outcome.bind_eq_ok.2 ⟨true, Outcome.ofPanicky_eq_ok.2 (by rw [hc]; exact lambdaBool_of hr hd), rfl⟩
  | cons _ h1 _ ih =>
    intro a seen r ha acc hc
    cases ha with
    | @step _ a' _ _ _ _ hd hu hrest =>
      obtain ⟨N, w, h2, h3, h4⟩ := h1
      obtain ⟨N', acc', h5, h6⟩ := ih hrest (Decoder.push acc w) (by simp [Decoder.push, h3, hc])
      refine ⟨max N N' + 1, acc', fun n j hn hj' => ?_, h6.cons h3 h4⟩
      obtain ⟨j, rfl⟩ : ∃ i, j = i + 1 := ⟨j - 1, by omega⟩
      simp only [Decoder.accumLoop]
      refine Outcome.bind_eq_ok.2 ⟨false, Outcome.ofPanicky_eq_ok.2 (by rw [hc]; exact lambdaBool_of hr hd), ?_⟩
      refine Outcome.bind_eq_ok.2 ⟨w, by rw [hc]; exact h2 n (by omega), Outcome.bind_eq_ok.2 ⟨a',
        Outcome.ofPanicky_eq_ok.2 (by rw [hr.evalLambda, h3]; exact hu), ?_⟩⟩
      exact h5 n j (by omega) (by omega)
end

/-! ## The induction -/

/-- the program `env` is compiled from the module `m` -/
structure Setup (m : Module) (Φ : Nat → UInt8 → Prop) (o : BuildOpts) (tr sm : Bool) (M : List ((Nat × Next) × Nat))
    (env : Env) : Prop where
  predictive : m.Predictive Φ tr sm
  order : o.ord.Valid
  calls : ∀ level next k it, m.items[level]? = some it → ((level, next), k) ∈ M →
    ∃ d, env.program[k]? = some d ∧ Compiles (.of m o M) it.format next d

variable {m : Module} {Φ : Nat → UInt8 → Prop} {o : BuildOpts} {tr sm : Bool} {M : List ((Nat × Next) × Nat)} {env : Env}
  {R : Format → Decoder → Prop}

theorem goes_nil {x : Next} {c : ReadCtxt} (h : Goes m x c) : Goes m (.sequence [] x) c :=
  .mk fun n s hs => by simp only [Next.step] at hs; exact h _ _ hs

theorem goes_EMPTY {x : Next} {c : ReadCtxt} (h : Goes m x c) : Goes m (.cat Format.EMPTY x) c :=
  .cat fun n s hs => by simp only [Format.EMPTY, Format.step] at hs; exact h _ _ hs

theorem begins_EMPTY {x : Next} {b : UInt8} (h : Begins m b (.cat Format.EMPTY x)) : Begins m b x := by
  simp only [Begins, Format.EMPTY] at h
  exact (h.resolve_left starts_nil).2

theorem begins_loop {f : Format} {x : Next} {b : UInt8} (hf : ¬ Skips m f)
    (h : Begins m b (.cat (.tuple [f, .repeat_ f]) x)) : Starts m f b := by
  simp only [Begins] at h
  rcases h with h | ⟨h, -⟩
  · exact (starts_cons.1 h).resolve_right fun h => hf h.1
  · exact absurd (skips_tuple.1 h f List.mem_cons_self) hf

/-- rounds left from here to the end of the loop -/
def Left (m : Module) (f : Format) (s : Scope Format) (c' c : ReadCtxt) (n : Nat) : Prop :=
  ∃ vs k, ParsesMany m never f s c vs c' k ∧ vs.length = n

theorem goes_loop (hm : m.Predictive Φ tr sm) {f : Format} {F : UInt8 → Prop} (hf : f.Predictive m Φ tr sm F) {s : Scope Format}
    {c' c : ReadCtxt} {n : Nat} (h : Left m f s c' c (n + 1)) {x : Next} (hx : Goes m x c') :
    Goes m (.cat (.tuple [f, .repeat_ f]) x) c := by
  obtain ⟨vs, k, h, hl⟩ := h
  cases h with
  | mnil => simp at hl
  | mcons h1 h2 =>
    refine .cat fun n s hs => ?_
    simp only [Format.step] at hs
    refine (goes hm h1 hf (x := .sequence [.repeat_ f] x) (.mk fun n s hs => ?_)).format hs
    simp only [Next.step] at hs
    cases n with
    | zero => simp [Format.step] at hs
    | succ n =>
      simp only [Format.step] at hs
      exact (goesMany hm h2 hf).1 (goes_nil hx) (n + 1) s (by simpa only [Next.step] using hs)

/-- the tree of a loop knows whether to go on -/
theorem loop_select (hm : m.Predictive Φ tr sm) {f : Format} {F F' : UInt8 → Prop} (hf : f.Predictive m Φ tr sm F')
    (hns : ¬ Skips m f) (hdis : ∀ b, ¬ (Starts m f b ∧ F b)) {s : Scope Format} {next : Next} (hb : ∀ b, Begins m b next → F b)
    {c' : ReadCtxt} (hcont : Cont F c') (hgo : Goes m next c') (ho : o.ord.Valid) {fs : List Format} {t : MatchTree}
    (ht : MatchTree.build m o.ord o.fuel fs next = .ok (some t)) {i j : Nat} (hij : i ≠ j)
    (hfs : fs = [.tuple [f, .repeat_ f], Format.EMPTY] ∧ i = 0 ∧ j = 1 ∨
      fs = [Format.EMPTY, .tuple [f, .repeat_ f]] ∧ i = 1 ∧ j = 0) {c : ReadCtxt} {n : Nat} (h : Left m f s c' c n) :
    t.matches c = some (if n = 0 then j else i) := by
  have hi : fs[i]? = some (.tuple [f, .repeat_ f]) := by rcases hfs with ⟨rfl, rfl, rfl⟩ | ⟨rfl, rfl, rfl⟩ <;> rfl
  have hj : fs[j]? = some Format.EMPTY := by rcases hfs with ⟨rfl, rfl, rfl⟩ | ⟨rfl, rfl, rfl⟩ <;> rfl
  have hl : ∀ l g, fs[l]? = some g → l = i ∨ l = j := by
    intro l g hg
    have := (List.getElem?_eq_some_iff.1 hg).1
    rcases hfs with ⟨rfl, rfl, rfl⟩ | ⟨rfl, rfl, rfl⟩ <;> simp at this <;> omega
  cases n with
  | zero =>
    rw [if_pos rfl]
    obtain ⟨vs, k, h, hl0⟩ := h
    cases h with
    | mcons _ _ => simp at hl0
    | mnil =>
      refine select1 ho ht hj (goes_EMPTY hgo) fun b hb' l g hg hne hbeg => ?_
      cases (hl l g hg).resolve_right hne
      rw [hi] at hg
      cases hg
      exact hdis b ⟨begins_loop hns hbeg, hcont b hb'⟩
  | succ n =>
    rw [if_neg (by omega)]
    refine select1 ho ht hi (goes_loop hm hf h hgo) fun b hb' l g hg hne hbeg => ?_
    cases (hl l g hg).resolve_left hne
    rw [hj] at hg
    cases hg
    obtain ⟨vs, k, h, hl0⟩ := h
    refine hdis b ⟨(opensMany hm h hf b hb').resolve_right ?_, hb b (begins_EMPTY hbeg)⟩
    rintro ⟨h1 | h1, -⟩
    · omega
    · exact hns h1

/-- what may come after a round of a loop -/
theorem begins_round {f : Format} {F : UInt8 → Prop} {next : Next} (hb : ∀ b, Begins m b next → F b) (b : UInt8)
    (h : Begins m b (.repeat_ f next)) : Starts m f b ∨ F b := by
  simp only [Begins] at h
  exact h.imp id (hb b)

theorem begins_cat {g : Format} {F : UInt8 → Prop} {next : Next} (hb : ∀ b, Begins m b next → F b) (b : UInt8)
    (h : Begins m b (.cat g next)) : Announces m F g b := by
  simp only [Begins] at h
  exact h.imp id fun h => ⟨h.1, hb b h.2⟩

theorem begins_fields {fs : List Format} {F : UInt8 → Prop} {next : Next} (hb : ∀ b, Begins m b next → F b) (b : UInt8)
    (h : Begins m b (.sequence fs next)) : Announces m F (.tuple fs) b := by
  simp only [Begins] at h
  exact h.imp id fun h => ⟨skips_tuple.2 h.1, hb b h.2⟩

theorem not_empty {b : UInt8} {p : Prop} (h : Begins m b .empty) : p := by simp only [Begins] at h

set_option maxHeartbeats 2000000 in
mutual
theorem found (S : Setup m Φ o tr sm M env) :
    ∀ {f s c v c' k}, Parses m never f s c v c' k → ∀ {F next d s'}, f.Predictive m Φ tr sm F →
      (∀ b, Begins m b next → F b) → Compiles (.of m o M) f next d → ScopeRel R s s' → (tr = true ∨ k = 0) →
      (sm = true → c.input.length < usizeCard) → Cont F c' → Goes m next c' → Found env d s' c v c' k
  | _, _, c, _, _, _, .itemVar (level := level) (it := it) (es := es) (vs := vs) hi ha hv h, F, next, _, _, hp, hb, hc, hs, hk, hz, hF, hg => by
    cases hc with
    | @itemVar _ _ _ it' _ dep k1 h1 h2 h3 =>
      have h1' : m.items[_]? = some it' := h1
      rw [hi] at h1'
      cases h1'
      simp only [Format.Predictive] at hp
      obtain ⟨d, h4, h5⟩ := S.calls _ _ _ _ hi h3
      have := found S h (F := Φ level) (next := if dep = true then next else .empty) (s' := .multi (es ++ vs) .empty)
        (S.predictive _ _ hi) (by
          cases dep with
          | true => exact fun b h => hp.2 b (hb b h)
          | false => exact fun b h => not_empty h) h5 (.multi .empty) hk hz (fun b h => hp.2 b (hF b h)) (by
          cases dep with
          | true => exact hg
          | false => exact .empty)
      refine this.wrap id (fun n w h6 _ _ => ?_) rfl
      unfold Decoder.parse
      refine Outcome.bind_eq_ok.2 ⟨_, evalArgs_of hs ha, Outcome.bind_eq_ok.2 ⟨_, evalViewArgs_of hs hv ?_,
        Outcome.bind_eq_ok.2 ⟨_, Outcome.ofPanicky_eq_ok.2 (Compiler.unwrap_eq_ok.2 h4), h6⟩⟩⟩
      rintro ⟨x, y⟩ hxy
      exact hp.1 y (List.of_mem_zip hxy).2
  | _, _, _, _, _, _, .endOfInput h, _, _, _, _, hp, hb, hc, hs, hk, hz, hF, hg => by
    cases hc
    refine .mk (N := 0) (w := .new _) (fun n _ => ?_) rfl rfl
    unfold Decoder.parse
    simp only [((ReadCtxt.C06_readByte _).2).2 h]
  | _, _, c, _, _, _, .align (n := k) (o := q) h1 h2 h3 h4 h5, _, _, _, _, hp, hb, hc, hs, hk, hz, hF, hg => by
    simp only [Format.Predictive] at hp
    have hz := hz hp
    cases hc
    refine .mk (N := 0) (w := .new _) (fun n _ => ?_) rfl rfl
    have ha := Sound.align_arith (o := c.offset) h1
    have he : c.offset + (k - c.offset % k) % k = q := by
      generalize (k - c.offset % k) % k = r at ha
      have e1 := Nat.div_add_mod (c.offset + r) k
      have e2 := Nat.div_add_mod q k
      rw [ha.2] at e1
      rw [h4] at e2
      rcases Nat.lt_trichotomy ((c.offset + r) / k) (q / k) with h | h | h
      · have := Nat.mul_le_mul_left k (show (c.offset + r) / k + 1 ≤ q / k from h)
        rw [Nat.mul_add] at this
        omega
      · rw [h] at e1; omega
      · have := Nat.mul_le_mul_left k (show q / k + 1 ≤ (c.offset + r) / k from h)
        rw [Nat.mul_add] at this
        omega
    unfold Decoder.parse
    simp only []
    rw [if_neg (by omega)]
    refine Outcome.bind_eq_ok.2 ⟨some (⟨c.input.take q, c.offset⟩, ⟨c.input, q⟩), Outcome.ofPanicky_eq_ok.2 ?_, rfl⟩
    unfold ReadCtxt.splitAt
    rw [addUsize_ok (by omega)]
    simp only [he, if_pos h5]
  | _, _, _, _, _, _, .byte (b := b) h1 h2, _, _, _, _, hp, hb, hc, hs, hk, hz, hF, hg => by
    cases hc
    refine .mk (N := 0) (w := .new _) (fun n _ => ?_) rfl rfl
    unfold Decoder.parse
    simp only [((ReadCtxt.C06_readByte _).1 b _).2 ⟨h1, rfl⟩, h2, if_true]
  | _, _, _, _, _, _, .variant h, _, _, _, _, hp, hb, hc, hs, hk, hz, hF, hg => by
    simp only [Format.Predictive] at hp
    cases hc with
    | variant hc =>
      refine (found S h hp hb hc hs hk hz hF hg).wrap (fun r => (.variant _ r.1, r.2)) (fun n w h6 _ _ => ?_) rfl
      unfold Decoder.parse
      exact Outcome.bind_eq_ok.2 ⟨_, h6, rfl⟩
  | _, _, c, _, c', _, .union (i := i) (f := f) hi h, F, next, _, _, hp, hb, hc, hs, hk, hz, hF, hg => by
    simp only [Format.Predictive] at hp
    cases hc with
    | union hc ht =>
      have hmem := List.mem_of_getElem? hi
      have hp' := each_get hp.1 _ hmem
      obtain ⟨d, h1, h2⟩ := CompilesAll.at hc hi
      have hsel := select1 S.order ht hi (goes S.predictive h hp' hg) fun b hb' j g hg' hne hbeg => by
        refine hp.2 i j f g b (Ne.symm hne) hi hg' ⟨?_, begins_cat hb b hbeg⟩
        exact (opens S.predictive h hp' b hb').imp id fun h => ⟨h.1, hF b h.2⟩
      refine (found S h hp' hb h2 hs hk hz hF hg).wrap (fun r => (.branch _ r.1, r.2)) (fun n w h6 _ _ => ?_) rfl
      unfold Decoder.parse
      simp only [hsel]
      exact Outcome.bind_eq_ok.2 ⟨_, Outcome.ofPanicky_eq_ok.2 (Compiler.unwrap_eq_ok.2 h1), Outcome.bind_eq_ok.2 ⟨_, h6, rfl⟩⟩
  | _, _, _, _, _, _, .unionNondet (i := i) hi hrej h, _, _, _, _, hp, hb, hc, hs, hk, hz, hF, hg => by
    simp only [Format.Predictive] at hp
    cases i with
    | succ i =>
      have := (List.getElem?_eq_some_iff.1 hi).1
      exact (hrej 0 (by omega) _ (List.getElem?_eq_getElem (by omega))).elim
    | zero =>
      cases hc with
      | unionNondet hc =>
        obtain ⟨d, h1, h2⟩ := CompilesAll.at hc hi
        refine (found S h (each_get hp _ (List.mem_of_getElem? hi)) hb h2 hs hk hz hF hg).wrap
          (fun r => (.branch _ r.1, r.2)) (fun n w h6 _ _ => ?_) rfl
        unfold Decoder.parse
        cases hc with
        | anil => simp at h1
        | acons _ _ =>
          simp at h1
          subst h1
          simp only [Decoder.parallelLoop, h6]
  | _, _, _, _, _, _, .tuple h, _, _, _, _, hp, hb, hc, hs, hk, hz, hF, hg => by
    simp only [Format.Predictive] at hp
    cases hc with
    | tuple hc =>
      obtain ⟨N, acc, h1, h2, h3⟩ := foundFields S h hp hb hc hs hk hz hF hg (.new ([], _)) rfl
      refine .mk (N := N) (w := acc.map fun r => (.tuple r.1, r.2)) (fun n hn => ?_) (by simp only [WithErr.map, h2]; rfl) h3
      unfold Decoder.parse
      exact Outcome.bind_eq_ok.2 ⟨_, h1 n hn, rfl⟩
  | _, _, _, _, _, _, .sequence h, _, _, _, _, hp, hb, hc, hs, hk, hz, hF, hg => by
    simp only [Format.Predictive] at hp
    cases hc with
    | sequence hc =>
      obtain ⟨N, acc, h1, h2, h3⟩ := foundFields S h hp hb hc hs hk hz hF hg (.new ([], _)) rfl
      refine .mk (N := N) (w := acc.map fun r => (.seq (.strict r.1), r.2)) (fun n hn => ?_) (by simp only [WithErr.map, h2]; rfl) h3
      unfold Decoder.parse
      exact Outcome.bind_eq_ok.2 ⟨_, h1 n hn, rfl⟩
  | _, _, _, _, _, _, .repeat_ (f := f) (vs := vs) h, _, _, _, _, hp, hb, hc, hs, hk, hz, hF, hg => by
    simp only [Format.Predictive] at hp
    cases hc with
    | @repeat_ _ _ d t _ hc ht =>
      have hst := foundMany S h hp.2.2 (fun _ => .inl) (begins_round hb) hc hs hk hz (fun b h => .inr (hF b h)) hg
      obtain ⟨N, acc, h1, h2, h3⟩ := hst.while_ (t := t) (fun _ _ hl => loop_select S.predictive hp.2.2 hp.1 hp.2.1 hb hF hg
        S.order ht (i := 0) (j := 1) (by omega) (.inl ⟨rfl, rfl, rfl⟩) hl) (.new ([], _)) rfl
      refine .mk (N := N) (w := acc.map fun r => (.seq (.strict r.1), r.2)) (fun n hn => ?_) (by simp only [WithErr.map, h2]; rfl) h3
      unfold Decoder.parse
      exact Outcome.bind_eq_ok.2 ⟨_, h1 n n hn hn, rfl⟩
  | _, _, _, _, _, _, .repeat1 (f := f) (vs := vs) h hne, _, _, _, _, hp, hb, hc, hs, hk, hz, hF, hg => by
    simp only [Format.Predictive] at hp
    cases hc with
    | @repeat1 _ _ d t _ hc ht =>
      have hst := foundMany S h hp.2.2 (fun _ => .inl) (begins_round hb) hc hs hk hz (fun b h => .inr (hF b h)) hg
      obtain ⟨N, acc, h1, h2, h3⟩ := hst.until_ (t := t) (K := vs.length) (fun _ _ hl _ => loop_select S.predictive hp.2.2
        hp.1 hp.2.1 hb hF hg S.order ht (i := 1) (j := 0) (by omega) (.inr ⟨rfl, rfl, rfl⟩) hl) (Nat.le_refl _) hne
        (.new ([], _)) rfl
      refine .mk (N := N) (w := acc.map fun r => (.seq (.strict r.1), r.2)) (fun n hn => ?_)
          (by simp only [WithErr.map, h2]; rfl) h3
      unfold Decoder.parse
      exact Outcome.bind_eq_ok.2 ⟨_, h1 n n hn hn, rfl⟩
  | _, _, _, _, _, _, .repeatCount (f := f) hd h hl, _, _, _, _, hp, hb, hc, hs, hk, hz, hF, hg => by
    simp only [Format.Predictive] at hp
    cases hc with
    | repeatCount hc =>
      have hst := foundMany S h hp.2 (fun _ => .inl) (begins_round hb) hc hs hk hz (fun b h => .inr (hF b h)) hg
      obtain ⟨N, acc, h1, h2, h3⟩ := hst.fold (.new ([], _)) rfl
      refine .mk (N := N) (w := acc.map fun r => (.seq (.strict r.1), r.2)) (fun n hn => ?_) (by simp only [WithErr.map, h2]; rfl) h3
      unfold Decoder.parse
      exact Outcome.bind_eq_ok.2 ⟨_, Outcome.ofPanicky_eq_ok.2 (evalUsize_of hs hd),
        Outcome.bind_eq_ok.2 ⟨_, by rw [← hl]; exact h1 n hn, rfl⟩⟩
  | _, _, _, _, _, _, .repeatBetween _ _ _ _ _, _, _, _, _, hp, hb, hc, hs, hk, hz, hF, hg => by
    simp only [Format.Predictive] at hp
  | _, _, _, _, _, _, .repeatUntilLast (e := e) (init := init) (last := last) h hlast hinit, _, _, _, s', hp, hb, hc, hs, hk, hz, hF, hg => by
    simp only [Format.Predictive] at hp
    cases hc with
    | repeatUntilLast hc =>
      have hst := foundMany S h hp (fun _ => .inl) (begins_round hb) hc hs hk hz (fun b h => .inr (hF b h)) hg
      obtain ⟨N, acc, h1, h2, h3⟩ := done hst (P := fun last _ => Decoder.lambdaBool e s' last) (.new ([], _)) rfl (by simp) (by
        intro i v post he
        rcases List.eq_nil_or_concat post with rfl | ⟨p, q, rfl⟩
        · obtain ⟨-, h⟩ := List.append_inj' he rfl
          cases h
          exact lambdaBool_of hs hlast
        · rw [List.concat_eq_append, ← List.cons_append, ← List.append_assoc] at he
          obtain ⟨h, -⟩ := List.append_inj' he rfl
          have := lambdaBool_of hs (hinit v (by rw [h]; simp))
          rw [this, List.concat_eq_append, List.isEmpty_eq_false_iff.2 (by simp)])
      refine .mk (N := N) (w := acc.map fun r => (.seq (.strict r.1), r.2)) (fun n hn => ?_)
          (by simp only [WithErr.map, h2]; rfl) h3
      unfold Decoder.parse
      exact Outcome.bind_eq_ok.2 ⟨_, h1 n n hn hn, rfl⟩
  | _, _, _, _, _, _, .repeatUntilSeq (e := e) (vs := vs) h hne hlast hinit, _, _, _, s', hp, hb, hc, hs, hk, hz, hF, hg => by
    simp only [Format.Predictive] at hp
    cases hc with
    | repeatUntilSeq hc =>
      have hst := foundMany S h hp (fun _ => .inl) (begins_round hb) hc hs hk hz (fun b h => .inr (hF b h)) hg
      obtain ⟨N, acc, h1, h2, h3⟩ := done hst (P := fun _ vs => Decoder.lambdaBool e s' (.seq (.strict vs))) (.new ([], _)) rfl hne (by
        intro i v post he
        have : [] ++ i ++ [v] = vs.take (i.length + 1) := by
          rw [he, List.nil_append, show i ++ v :: post = (i ++ [v]) ++ post by simp, List.take_left' (by simp)]
        show Decoder.lambdaBool e s' (.seq (.strict ([] ++ i ++ [v]))) = _
        rw [this]
        cases post with
        | nil =>
          rw [List.take_of_length_le (by rw [he]; simp)]
          exact lambdaBool_of hs hlast
        | cons q post =>
          exact lambdaBool_of hs (hinit _ (by omega) (by rw [he]; simp)))
      refine .mk (N := N) (w := acc.map fun r => (.seq (.strict r.1), r.2)) (fun n hn => ?_)
          (by simp only [WithErr.map, h2]; rfl) h3
      unfold Decoder.parse
      exact Outcome.bind_eq_ok.2 ⟨_, h1 n n hn hn, rfl⟩
  | _, _, _, _, _, _, .accumUntil (a := a) (r := r) hd h ha, _, _, _, _, hp, hb, hc, hs, hk, hz, hF, hg => by
    simp only [Format.Predictive] at hp
    cases hc with
    | accumUntil hc =>
      have hst := foundMany S h hp (fun _ => .inl) (begins_round hb) hc hs hk hz (fun b h => .inr (hF b h)) hg
      obtain ⟨N, acc, h1, h2, h3⟩ := accum hs hst ha (.new ([], _)) rfl
      refine .mk (N := N) (w := acc.map fun q => (.tuple [r, .seq (.strict q.1)], q.2)) (fun n hn => ?_)
          (by simp only [WithErr.map, h2]; rfl) h3
      unfold Decoder.parse
      exact Outcome.bind_eq_ok.2 ⟨_, Outcome.ofPanicky_eq_ok.2 (by rw [hs.evalValue]; exact hd),
        Outcome.bind_eq_ok.2 ⟨_, h1 n n hn hn, rfl⟩⟩
  | _, _, _, _, _, _, .forEach hd h, _, _, _, _, hp, hb, hc, hs, hk, hz, hF, hg => by
    simp only [Format.Predictive] at hp
    cases hc with
    | forEach hc =>
      obtain ⟨N, acc, h1, h2, h3⟩ := foundEach S h hp.2 (fun _ => .inl) (begins_round hb) hc hs hk hz
        (fun b h => .inr (hF b h)) hg (.new ([], _)) rfl
      refine .mk (N := N) (w := acc.map fun r => (.seq (.strict r.1), r.2)) (fun n hn => ?_) (by simp only [WithErr.map, h2]; rfl) h3
      unfold Decoder.parse
      exact Outcome.bind_eq_ok.2 ⟨_, Outcome.ofPanicky_eq_ok.2 (evalItems_of hs hd), Outcome.bind_eq_ok.2 ⟨_, h1 n hn, rfl⟩⟩
  | _, _, _, _, _, _, .maybe_some hd h, _, _, _, _, hp, hb, hc, hs, hk, hz, hF, hg => by
    simp only [Format.Predictive] at hp
    cases hc with
    | maybe hc =>
      refine (found S h (next := .empty) hp (fun _ => not_empty) hc hs hk hz hF .empty).wrap
        (fun r => (.optSome r.1, r.2)) (fun n w h6 _ _ => ?_) rfl
      unfold Decoder.parse
      exact Outcome.bind_eq_ok.2 ⟨_, Outcome.ofPanicky_eq_ok.2 (evalBool_of hs hd), Outcome.bind_eq_ok.2 ⟨_, h6, rfl⟩⟩
  | _, _, _, _, _, _, .maybe_none hd, _, _, _, _, hp, hb, hc, hs, hk, hz, hF, hg => by
    cases hc
    refine .mk (N := 0) (w := .new _) (fun n _ => ?_) rfl rfl
    unfold Decoder.parse
    exact Outcome.bind_eq_ok.2 ⟨_, Outcome.ofPanicky_eq_ok.2 (evalBool_of hs hd), rfl⟩
  | _, _, _, _, _, _, .peek h, _, _, _, _, hp, hb, hc, hs, hk, hz, hF, hg => by
    simp only [Format.Predictive] at hp
    cases hc with
    | peek hc =>
      refine (found S h (next := .empty) hp (fun _ => not_empty) hc hs hk hz (fun _ _ => trivial) .empty).wrap
        (fun r => (r.1, _)) (fun n w h6 _ _ => ?_) rfl
      unfold Decoder.parse
      exact Outcome.bind_eq_ok.2 ⟨_, h6, rfl⟩
  | _, _, _, _, _, _, .peekNot h, _, _, _, _, hp, hb, hc, hs, hk, hz, hF, hg => h.elim
  | _, _, c, _, _, _, .slice (n := q) hd hle h, _, _, _, _, hp, hb, hc, hs, hk, hz, hF, hg => by
    simp only [Format.Predictive] at hp
    have hz' := hz hp.1
    cases hc with
    | slice hc =>
      refine (found S h (next := .empty) hp.2.2 (fun _ => not_empty) hc hs hk (fun _ => by
          simp only [List.length_take]; omega) (fun _ _ => trivial) .empty).wrap
        (fun r => (r.1, _)) (fun n w h6 _ _ => ?_) rfl
      unfold Decoder.parse
      refine Outcome.bind_eq_ok.2 ⟨_, Outcome.ofPanicky_eq_ok.2 (evalUsize_of hs hd), Outcome.bind_eq_ok.2
        ⟨some (⟨c.input.take (c.offset + q), c.offset⟩, ⟨c.input, c.offset + q⟩), Outcome.ofPanicky_eq_ok.2 ?_, ?_⟩⟩
      · unfold ReadCtxt.splitAt
        rw [addUsize_ok (by omega)]
        simp only [if_pos hle]
      · exact Outcome.bind_eq_ok.2 ⟨_, h6, rfl⟩
  | _, _, _, _, _, _, .bits _ _, _, _, _, _, hp, hb, hc, hs, hk, hz, hF, hg => by
    simp only [Format.Predictive] at hp
  | _, _, c, _, _, _, .withRelativeOffset (b := p) (o := q) h1 h2 hle h, _, _, _, _, hp, hb, hc, hs, hk, hz, hF, hg => by
    simp only [Format.Predictive] at hp
    have hz' := hz hp.1
    cases hc with
    | withRelativeOffset hc =>
      refine (found S h (next := .empty) hp.2 (fun _ => not_empty) hc hs hk hz (fun _ _ => trivial) .empty).wrap
        (fun r => (r.1, _)) (fun n w h6 _ _ => ?_) rfl
      unfold Decoder.parse
      refine Outcome.bind_eq_ok.2 ⟨_, Outcome.ofPanicky_eq_ok.2 (evalUsize_of hs h1), Outcome.bind_eq_ok.2
        ⟨_, Outcome.ofPanicky_eq_ok.2 (evalUsize_of hs h2), Outcome.bind_eq_ok.2 ⟨p + q, Outcome.ofPanicky_eq_ok.2
          (addUsize_ok (by omega)), ?_⟩⟩⟩
      simp only [ReadCtxt.seekTo, if_pos hle]
      exact Outcome.bind_eq_ok.2 ⟨_, h6, rfl⟩
  | _, _, _, _, _, _, .map h hd, _, _, _, _, hp, hb, hc, hs, hk, hz, hF, hg => by
    simp only [Format.Predictive] at hp
    cases hc with
    | map hc =>
      refine (found S h hp hb hc hs hk hz hF hg).wrap (fun r => (.mapped r.1 _, r.2)) (fun n w h6 h7 _ => ?_) rfl
      unfold Decoder.parse
      exact Outcome.bind_eq_ok.2 ⟨_, h6, Outcome.bind_eq_ok.2 ⟨_, Outcome.ofPanicky_eq_ok.2
        (by rw [hs.evalLambda, h7]; exact hd), rfl⟩⟩
  | _, _, _, _, _, _, .where_ h hd, _, _, _, _, hp, hb, hc, hs, hk, hz, hF, hg => by
    simp only [Format.Predictive] at hp
    cases hc with
    | where_ hc =>
      refine (found S h hp hb hc hs hk hz hF hg).wrap id (fun n w h6 h7 _ => ?_) rfl
      unfold Decoder.parse
      refine Outcome.bind_eq_ok.2 ⟨_, h6, Outcome.bind_eq_ok.2 ⟨.new w.value, Outcome.bind_eq_ok.2 ⟨true, Outcome.ofPanicky_eq_ok.2
        (lambdaBool_of hs (by rw [h7]; exact hd)), rfl⟩, ?_⟩⟩
      rfl
  | _, _, _, _, _, _, .where_lenient (e := e) h hd, _, _, _, _, hp, hb, hc, hs, hk, hz, hF, hg => by
    simp only [Format.Predictive] at hp
    cases hc with
    | where_ hc =>
      obtain ⟨N, w, h1, h2, h3⟩ := found S h hp hb hc hs (hk.imp id (by omega)) hz hF hg
      refine .mk (N := N) (w := ⟨w.value, .badWhere e w.value.1 :: w.errs⟩) (fun n hn => ?_) h2 (by simp [h3])
      unfold Decoder.parse
      refine Outcome.bind_eq_ok.2 ⟨_, h1 n hn, Outcome.bind_eq_ok.2 ⟨.withErr w.value (.badWhere e w.value.1), Outcome.bind_eq_ok.2 ⟨false, Outcome.ofPanicky_eq_ok.2
        (lambdaBool_of hs (by rw [h2]; exact hd)), rfl⟩, ?_⟩⟩
      rfl
  | _, _, _, _, _, _, .compute hd, _, _, _, _, hp, hb, hc, hs, hk, hz, hF, hg => by
    cases hc
    refine .mk (N := 0) (w := .new _) (fun n _ => ?_) rfl rfl
    unfold Decoder.parse
    exact Outcome.bind_eq_ok.2 ⟨_, Outcome.ofPanicky_eq_ok.2 (by rw [hs.evalValue]; exact hd), rfl⟩
  | _, _, _, _, _, _, .let_ hd h, _, _, _, _, hp, hb, hc, hs, hk, hz, hF, hg => by
    simp only [Format.Predictive] at hp
    cases hc with
    | let_ hc =>
      refine (found S h hp hb hc (.single hs) hk hz hF hg).wrap id (fun n w h6 h7 _ => ?_) rfl
      unfold Decoder.parse
      exact Outcome.bind_eq_ok.2 ⟨_, Outcome.ofPanicky_eq_ok.2 (by rw [hs.evalValue]; exact hd), h6⟩
  | _, _, _, _, _, _, .match_ hh hi hq hno h, _, _, _, _, hp, hb, hc, hs, hk, hz, hF, hg => by
    simp only [Format.Predictive] at hp
    cases hc with
    | match_ hc =>
      obtain ⟨d, h1, h2⟩ := CompilesBranches.at hc hi hq hno
      refine (found S h (branches_get hp _ (List.mem_of_getElem? hi)) hb h1 (hs.withBindings _) hk hz hF hg).wrap
        (fun r => (.branch _ r.1, r.2)) (fun n w h6 h7 _ => ?_) rfl
      unfold Decoder.parse
      refine Outcome.bind_eq_ok.2 ⟨_, Outcome.ofPanicky_eq_ok.2 (by rw [hs.eval]; exact hh), ?_⟩
      rw [h2]
      exact Outcome.bind_eq_ok.2 ⟨_, h6, by rw [Nat.zero_add]⟩
  | _, _, _, _, _, _, .dynamic .., _, _, _, _, hp, hb, hc, hs, hk, hz, hF, hg => by simp only [Format.Predictive] at hp
  | _, _, _, _, _, _, .apply .., _, _, _, _, hp, hb, hc, hs, hk, hz, hF, hg => by simp only [Format.Predictive] at hp
  | _, _, _, _, _, _, .pos, _, _, _, _, hp, hb, hc, hs, hk, hz, hF, hg => by
    cases hc
    refine .mk (N := 0) (w := .new _) (fun n _ => ?_) rfl rfl
    unfold Decoder.parse
    rfl
  | _, _, _, _, _, _, .skipRemainder, _, _, _, _, hp, hb, hc, hs, hk, hz, hF, hg => by
    cases hc
    refine .mk (N := 0) (w := .new _) (fun n _ => ?_) rfl rfl
    unfold Decoder.parse
    rfl
  | _, _, c, _, _, _, .decodeBytes (bytes := bs) (c' := c1) hd hbs h hlen, _, _, _, _, hp, hb, hc, hs, hk, hz, hF, hg => by
    simp only [Format.Predictive] at hp
    cases hc with
    | decodeBytes hc =>
      have hin : c1.input = bs := h.forward.1
      refine (found S h (next := .empty) hp.2 (fun _ => not_empty) hc hs hk (by rw [hp.1]; simp) (fun b hb => by
        have := (List.getElem?_eq_some_iff.1 hb).1
        rw [hin] at this
        omega) .empty).wrap (fun r => (r.1, _)) (fun n w h6 h7 _ => ?_) rfl
      unfold Decoder.parse
      refine Outcome.bind_eq_ok.2 ⟨_, Outcome.ofPanicky_eq_ok.2 (evalItems_of hs hd), Outcome.bind_eq_ok.2 ⟨_,
        Outcome.ofPanicky_eq_ok.2 (bytesOf_of hbs), Outcome.bind_eq_ok.2 ⟨_, h6, ?_⟩⟩⟩
      unfold WithErr.joinO
      rw [h7]
      simp only [((ReadCtxt.C06_readByte c1).2).2 (by rw [hin]; exact hlen)]
      simp [WithErr.new, WithErr.map, h7]
  | _, _, c0, _, _, _, .decodeBytes_trailing (bytes := bs) (v := v) (c' := c1) hd hbs h hlen, _, _, _, _, hp, hb, hc, hs, hk, hz, hF, hg => by
    simp only [Format.Predictive] at hp
    cases hc with
    | decodeBytes hc =>
      have htr : tr = true := hk.resolve_right (by omega)
      have hin : c1.input = bs := h.forward.1
      obtain ⟨N, w, h1, h2, h3⟩ := found S h (next := .empty) hp.2 (fun _ => not_empty) hc hs (.inl htr) (by rw [hp.1]; simp)
        (fun _ _ => htr) .empty
      have hb' : c1.readByte = some (bs[c1.offset], ⟨c1.input, c1.offset + 1⟩) :=
        ((ReadCtxt.C06_readByte _).1 _ _).2 ⟨by rw [hin]; exact List.getElem?_eq_getElem hlen, rfl⟩
      refine .mk (N := N) (w := ⟨(v, c0), .trailing bs[c1.offset] c1.offset :: w.errs⟩) (fun n hn => ?_) rfl (by simp [h3])
      unfold Decoder.parse
      refine Outcome.bind_eq_ok.2 ⟨_, Outcome.ofPanicky_eq_ok.2 (evalItems_of hs hd), Outcome.bind_eq_ok.2 ⟨_,
        Outcome.ofPanicky_eq_ok.2 (bytesOf_of hbs), Outcome.bind_eq_ok.2 ⟨_, h1 n hn, ?_⟩⟩⟩
      unfold WithErr.joinO
      rw [h2]
      simp only [hb']
      rfl
  | _, _, _, _, _, _, .letFormat (f := f) (g := g) (x := x) (v := v) h1 h2, _, next, _, _, hp, hb, hc, hs, hk, hz, hF, hg => by
    simp only [Format.Predictive] at hp
    cases hc with
    | letFormat hc1 hc2 =>
      have hin := h1.forward.1
      obtain ⟨N, w, h3, h4, h5⟩ := found S h1 (next := .cat g next) hp.1 (begins_cat hb) hc1 hs (hk.imp id (by omega)) hz
        (fun b hb' => (opens S.predictive h2 hp.2 b hb').imp id fun h => ⟨h.1, hF b h.2⟩) (goes S.predictive h2 hp.2 hg)
      obtain ⟨N', w', h6, h7, h8⟩ := found S h2 hp.2 hb hc2 (.single (x := x) (v := v) hs) (hk.imp id (by omega))
        (by rw [hin]; exact hz) hF hg
      refine .mk (N := max N N') (w := ⟨w'.value, w'.errs ++ w.errs⟩) (fun n hn => ?_) h7 (by simp [h5, h8]; omega)
      unfold Decoder.parse
      refine Outcome.bind_eq_ok.2 ⟨_, h3 n (by omega), Outcome.bind_eq_ok.2 ⟨w', ?_, rfl⟩⟩
      rw [h4]
      exact h6 n (by omega)
  | _, _, _, _, _, _, .monadSeq (f := f) (g := g) h1 h2, _, next, _, _, hp, hb, hc, hs, hk, hz, hF, hg => by
    simp only [Format.Predictive] at hp
    cases hc with
    | monadSeq hc1 hc2 =>
      have hin := h1.forward.1
      obtain ⟨N, w, h3, h4, h5⟩ := found S h1 (next := .cat g next) hp.1 (begins_cat hb) hc1 hs (hk.imp id (by omega)) hz
        (fun b hb' => (opens S.predictive h2 hp.2 b hb').imp id fun h => ⟨h.1, hF b h.2⟩) (goes S.predictive h2 hp.2 hg)
      obtain ⟨N', w', h6, h7, h8⟩ := found S h2 hp.2 hb hc2 hs (hk.imp id (by omega)) (by rw [hin]; exact hz) hF hg
      refine .mk (N := max N N') (w := ⟨w'.value, w'.errs ++ w.errs⟩) (fun n hn => ?_) h7 (by simp [h5, h8]; omega)
      unfold Decoder.parse
      refine Outcome.bind_eq_ok.2 ⟨_, h3 n (by omega), Outcome.bind_eq_ok.2 ⟨w', ?_, rfl⟩⟩
      rw [h4]
      exact h6 n (by omega)
  | _, _, _, _, _, _, .hint h, _, _, _, _, hp, hb, hc, hs, hk, hz, hF, hg => by
    simp only [Format.Predictive] at hp
    cases hc with
    | hint hc => exact found S h hp hb hc hs hk hz hF hg
  | _, _, _, _, _, _, .liftedNone, _, _, _, _, hp, hb, hc, hs, hk, hz, hF, hg => by
    cases hc
    refine .mk (N := 0) (w := .new _) (fun n _ => ?_) rfl rfl
    unfold Decoder.parse
    rfl
  | _, _, _, _, _, _, .liftedSome h, _, _, _, _, hp, hb, hc, hs, hk, hz, hF, hg => by
    simp only [Format.Predictive] at hp
    cases hc with
    | liftedSome hc =>
      refine (found S h hp hb hc hs hk hz hF hg).wrap (fun r => (.optSome r.1, r.2)) (fun n w h6 _ _ => ?_) rfl
      unfold Decoder.parse
      exact Outcome.bind_eq_ok.2 ⟨_, h6, rfl⟩
  | _, _, _, _, _, _, .letView h, _, _, _, _, hp, hb, hc, hs, hk, hz, hF, hg => by
    simp only [Format.Predictive] at hp
    cases hc with
    | letView hc =>
      refine (found S h hp hb hc (.view hs) hk hz hF hg).wrap id (fun n w h6 _ _ => ?_) rfl
      unfold Decoder.parse
      exact h6
  | _, _, _, _, _, _, .captureBytes hv hd hl, _, _, _, _, hp, hb, hc, hs, hk, hz, hF, hg => by
    simp only [Format.Predictive] at hp
    obtain ⟨x, rfl⟩ := hp
    cases hc
    refine .mk (N := 0) (w := .new _) (fun n _ => ?_) rfl rfl
    unfold Decoder.parse
    exact Outcome.bind_eq_ok.2 ⟨_, Outcome.ofPanicky_eq_ok.2 (evalUsize_of hs hd), Outcome.bind_eq_ok.2 ⟨_,
      evalView_of hs hv, Outcome.bind_eq_ok.2 ⟨_, captureLoop_of hl, rfl⟩⟩⟩
  | _, _, _, _, _, _, .readArray _ _ _ _, _, _, _, _, hp, hb, hc, hs, hk, hz, hF, hg => by
    simp only [Format.Predictive] at hp
  | _, _, _, _, _, _, .reifyView hv, _, _, _, _, hp, hb, hc, hs, hk, hz, hF, hg => by
    simp only [Format.Predictive] at hp
    obtain ⟨x, rfl⟩ := hp
    cases hc
    refine .mk (N := 0) (w := .new _) (fun n _ => ?_) rfl rfl
    unfold Decoder.parse
    exact Outcome.bind_eq_ok.2 ⟨_, evalView_of hs hv, rfl⟩
  | _, _, _, _, _, _, .parseFromView hv h, _, _, _, _, hp, hb, hc, hs, hk, hz, hF, hg => by
    simp only [Format.Predictive] at hp
    obtain ⟨hsm, ⟨x, rfl⟩, hp⟩ := hp
    cases hc with
    | parseFromView hc =>
      refine (found S h (next := .empty) hp (fun _ => not_empty) hc hs hk (by rw [hsm]; simp) (fun _ _ => trivial) .empty).wrap
        (fun r => (r.1, _)) (fun n w h6 _ _ => ?_) rfl
      unfold Decoder.parse
      exact Outcome.bind_eq_ok.2 ⟨_, evalView_of hs hv, Outcome.bind_eq_ok.2 ⟨_, h6, rfl⟩⟩
  | _, _, _, _, _, _, .phantom, _, _, _, _, hp, hb, hc, hs, hk, hz, hF, hg => by
    cases hc
    refine .mk (N := 0) (w := .new _) (fun n _ => ?_) rfl rfl
    unfold Decoder.parse
    rfl
  | _, _, _, _, _, _, .enforce h, _, _, _, _, hp, hb, hc, hs, hk, hz, hF, hg => by
    simp only [Format.Predictive] at hp
    cases hc with
    | enforce hc =>
      refine (found S h hp hb hc hs hk hz hF hg).wrap id (fun n w h6 _ h8 => ?_) rfl
      unfold Decoder.parse
      refine Outcome.bind_eq_ok.2 ⟨_, h6, ?_⟩
      obtain ⟨wv, we⟩ := w
      cases List.length_eq_zero_iff.1 h8
      rfl
  | _, _, _, _, _, _, .permit h, _, _, _, _, hp, hb, hc, hs, hk, hz, hF, hg => by
    simp only [Format.Predictive] at hp
    cases hc with
    | permit hc =>
      refine (found S h hp hb hc hs hk hz hF hg).wrap (fun r => (.permitOk r.1, r.2)) (fun n w h6 _ _ => ?_) rfl
      unfold Decoder.parse
      simp only [h6]
  | _, _, _, _, _, _, .permit_fallback h _, _, _, _, _, hp, hb, hc, hs, hk, hz, hF, hg => h.elim

theorem foundFields (S : Setup m Φ o tr sm M env) :
    ∀ {fs s c vs c' k}, ParsesFields m never fs s c vs c' k → ∀ {F next ds s'}, Format.FieldsPredictive m Φ tr sm F fs →
      (∀ b, Begins m b next → F b) → CompilesFields (.of m o M) fs next ds → ScopeRel R s s' → (tr = true ∨ k = 0) →
      (sm = true → c.input.length < usizeCard) → Cont F c' → Goes m next c' → ∀ acc : Decoder.Acc, acc.value.2 = c →
        ∃ N acc', (∀ n, N ≤ n → Decoder.foldItems (fun d c => Decoder.parse env n d s' c) ds acc = .ok acc') ∧
          Adds acc acc' vs c' k
  | _, _, _, _, _, _, .fnil, _, _, _, _, hp, hb, hc, hs, hk, hz, hF, hg, acc, ha => by
    cases hc
    exact ⟨0, acc, fun n _ => rfl, by simp [← ha], by simp⟩
  | _, _, _, _, _, _, .fcons (f := f) (fs := fs) h1 h2, _, next, _, _, hp, hb, hc, hs, hk, hz, hF, hg, acc, ha => by
    simp only [Format.FieldsPredictive] at hp
    cases hc with
    | fcons hc1 hc2 =>
      have hin := h1.forward.1
      obtain ⟨N, w, h3, h4, h5⟩ := found S h1 (next := .sequence fs next) hp.1 (begins_fields hb) hc1 hs (hk.imp id (by omega))
        hz (fun b hb' => (opensFields S.predictive h2 hp.2 b hb').imp id fun h => ⟨h.1, hF b h.2⟩)
        (goesFields S.predictive h2 hp.2 hg)
      obtain ⟨N', acc', h6, h7⟩ := foundFields S h2 hp.2 hb hc2 hs (hk.imp id (by omega)) (by rw [hin]; exact hz) hF hg
        (Decoder.push acc w) (by simp [Decoder.push, h4])
      refine ⟨max N N', acc', fun n hn => ?_, h7.cons h4 h5⟩
      simp only [Decoder.foldItems]
      exact Outcome.bind_eq_ok.2 ⟨w, by rw [ha]; exact h3 n (by omega), h6 n (by omega)⟩

theorem foundMany (S : Setup m Φ o tr sm M env) :
    ∀ {f s c vs c' k}, ParsesMany m never f s c vs c' k → ∀ {F next d s'}, f.Predictive m Φ tr sm F →
      (∀ b, Starts m f b → F b) → (∀ b, Begins m b (.repeat_ f next) → F b) → Compiles (.of m o M) f (.repeat_ f next) d →
      ScopeRel R s s' → (tr = true ∨ k = 0) → (sm = true → c.input.length < usizeCard) → Cont F c' → Goes m next c' →
      Steps env d s' (Left m f s c') c vs c' k
  | _, _, _, _, _, _, .mnil, _, _, _, _, hp, hf, hb, hc, hs, hk, hz, hF, hg => .nil ⟨[], 0, .mnil, rfl⟩
  | _, _, _, _, _, _, .mcons h1 h2, _, _, _, _, hp, hf, hb, hc, hs, hk, hz, hF, hg => by
    have hin := h1.forward.1
    refine .cons ⟨_, _, .mcons h1 h2, rfl⟩ (found S h1 hp hb hc hs (hk.imp id (by omega)) hz
      (fun b hb' => (opensMany S.predictive h2 hp b hb').elim (hf b) fun h => hF b h.2) ((goesMany S.predictive h2 hp).1 hg))
      (foundMany S h2 hp hf hb hc hs (hk.imp id (by omega)) (by rw [hin]; exact hz) hF hg)

theorem foundEach (S : Setup m Φ o tr sm M env) :
    ∀ {l f s is c vs c' k}, ParsesEach m never l f s is c vs c' k → ∀ {F next d s'}, f.Predictive m Φ tr sm F →
      (∀ b, Starts m f b → F b) → (∀ b, Begins m b (.repeat_ f next) → F b) → Compiles (.of m o M) f (.repeat_ f next) d →
      ScopeRel R s s' → (tr = true ∨ k = 0) → (sm = true → c.input.length < usizeCard) → Cont F c' → Goes m next c' →
      ∀ acc : Decoder.Acc, acc.value.2 = c →
        ∃ N acc', (∀ n, N ≤ n → Decoder.foldItems (fun v c => Decoder.parse env n d (.single l v s') c) is acc = .ok acc') ∧
          Adds acc acc' vs c' k
  | _, _, _, _, _, _, _, _, .enil, _, _, _, _, hp, hf, hb, hc, hs, hk, hz, hF, hg, acc, ha =>
    ⟨0, acc, fun n _ => rfl, by simp [← ha], by simp⟩
  | _, _, _, _, _, _, _, _, .econs h1 h2, _, _, _, _, hp, hf, hb, hc, hs, hk, hz, hF, hg, acc, ha => by
    have hin := h1.forward.1
    obtain ⟨N, w, h3, h4, h5⟩ := found S h1 hp hb hc (.single hs) (hk.imp id (by omega)) hz
      (fun b hb' => (opensEach S.predictive h2 hp b hb').elim (hf b) fun h => hF b h.2) (goesEach S.predictive h2 hp hg)
    obtain ⟨N', acc', h6, h7⟩ := foundEach S h2 hp hf hb hc hs (hk.imp id (by omega)) (by rw [hin]; exact hz) hF hg
      (Decoder.push acc w) (by simp [Decoder.push, h4])
    refine ⟨max N N', acc', fun n hn => ?_, h7.cons h4 h5⟩
    simp only [Decoder.foldItems]
    exact Outcome.bind_eq_ok.2 ⟨w, by rw [ha]; exact h3 n (by omega), h6 n (by omega)⟩
end

end Predictive
end Doodle
