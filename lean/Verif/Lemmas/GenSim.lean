import Verif.Lemmas.GenParser

/-! Generated decoders simulate the interpreter: sequencing, loops and contexts. -/

namespace Doodle
namespace Gen

open Rt (Parser OpRes PErr ByteOffset Lens ViewStack bitStream bitStream_length bitStream_get
  gt_bytes gt_bits_bytes gt_bits addUsize_eq_ok tryIncrement_cases)

variable {α β γ ε : Type}

/-- What the block `g`, started on `p`, owes to the result `r` of the interpreter: the same success, and in a strict
context the same failure. -/
def Agree (k : Ctx) (p : Parser) (Q : α → β → Parser → Prop) (r : Outcome DecodeErr α) (g : Res β) : Prop :=
  (∀ a, r = .ok a → ∃ b p', g = .ok b p' ∧ Q a b p' ∧ After k.quiet p p') ∧
  (∀ e, r = .err e → k.strict = true → ∃ e' p', g = .err e' p' ∧ (k.quiet = true → Junk p p'))

/-- the same value up to marks, and the parser where the interpreter is -/
def QV (b : Bool) (w : Parsed) (v : Value) (p : Parser) : Prop := ER w.value.1 v ∧ Sim b w.value.2 p

/-- the same for the values collected so far -/
def QA (b : Bool) (w : Decoder.Acc) (vs : List Value) (p : Parser) : Prop := ERL w.value.1 vs ∧ Sim b w.value.2 p

section
variable {k : Ctx} {p : Parser} {Q : α → β → Parser → Prop} {Q' : γ → ε → Parser → Prop}

theorem Agree.panic {g : Res β} : Agree k p Q .panic g := ⟨(fun _ h => nomatch h), (fun _ h => nomatch h)⟩
theorem Agree.fuel {g : Res β} : Agree k p Q .fuel g := ⟨(fun _ h => nomatch h), (fun _ h => nomatch h)⟩

theorem Agree.ok {a : α} {b : β} {p' : Parser} (hq : Q a b p') (ha : After k.quiet p p') :
    Agree k p Q (.ok a) (.ok b p') :=
  ⟨(fun _ h => by cases h; exact ⟨b, p', rfl, hq, ha⟩), (fun _ h => nomatch h)⟩

theorem Agree.here {a : α} {b : β} (hq : Q a b p) : Agree k p Q (.ok a) (.ok b p) := .ok hq (.refl _ _)

theorem Agree.err {e : DecodeErr} {g : Res β}
    (h : k.strict = true → ∃ e' p', g = .err e' p' ∧ (k.quiet = true → Junk p p')) : Agree k p Q (.err e) g :=
  ⟨(fun _ h => nomatch h), (fun _ _ => h)⟩

theorem Agree.bind {r : Outcome DecodeErr α} {g : Res β} {f : α → Outcome DecodeErr γ} {h : β → Parser → Res ε}
    (h1 : Agree k p Q r g)
    (h2 : ∀ a b p', Q a b p' → After k.quiet p p' → Agree k p' Q' (f a) (h b p')) :
    Agree k p Q' (r >>= f) (g.bind h) := by
  cases r with
  | panic => exact .panic
  | fuel => exact .fuel
  | err e =>
    refine .err fun hs => ?_
    obtain ⟨e', p', h3, h4⟩ := h1.2 e rfl hs
    rw [h3]
    exact ⟨e', p', rfl, h4⟩
  | ok a =>
    obtain ⟨b, p', h3, h4, h5⟩ := h1.1 a rfl
    have h6 := h2 a b p' h4 h5
    rw [h3]
    refine ⟨?_, ?_⟩
    · intro c hc
      obtain ⟨d, p'', h7, h8, h9⟩ := h6.1 c hc
      exact ⟨d, p'', h7, h8, h5.trans h9⟩
    · intro e he hs
      obtain ⟨e', p'', h7, h8⟩ := h6.2 e he hs
      refine ⟨e', p'', h7, fun hq => ?_⟩
      rw [hq] at h5
      exact Junk.after h5 (h8 hq)

/-- code that cannot fail and does not use the parser -/
theorem Agree.pure {r : α → β → Prop} {x : Panicky α} {y : Panicky β} (h : PLe r x y) :
    Agree k p (fun a b p' => p' = p ∧ r a b) (Outcome.ofPanicky x) (Res.pure p y) := by
  cases x with
  | panic => exact .panic
  | ok a =>
    obtain ⟨b, h1, h2⟩ := h a rfl
    rw [h1]
    exact .here ⟨rfl, h2⟩

theorem Agree.mono {Q Q' : α → β → Parser → Prop} {r : Outcome DecodeErr α} {g : Res β} (h : Agree k p Q r g)
    (hq : ∀ a b p', Q a b p' → Q' a b p') : Agree k p Q' r g := by
  refine ⟨fun a ha => ?_, h.2⟩
  obtain ⟨b, p', h1, h2, h3⟩ := h.1 a ha
  exact ⟨b, p', h1, hq _ _ _ h2, h3⟩

/-- the last step on the values -/
theorem Agree.map {r : Outcome DecodeErr α} {g : Res β} {f : α → γ} {h : β → ε} (h1 : Agree k p Q r g)
    (hq : ∀ a b p', Q a b p' → Q' (f a) (h b) p') :
    Agree k p Q' (r >>= fun a => .ok (f a)) (g.bind fun b p' => .ok (h b) p') :=
  h1.bind fun a b p' h2 _ => .here (hq a b p' h2)

/-- the errors logged by the interpreter do not matter -/
theorem Agree.joinO {b : Bool} {w : Parsed} {f : Value × ReadCtxt → Outcome DecodeErr Parsed} {g : Res Value}
    (h : Agree k p (QV b) (f w.value) g) : Agree k p (QV b) (w.joinO f) g := by
  unfold WithErr.joinO
  cases h1 : f w.value with
  | panic => exact .panic
  | fuel => exact .fuel
  | err e => rw [h1] at h; exact h
  | ok a =>
    rw [h1] at h
    obtain ⟨v, p', h2, h3, h4⟩ := h.1 a rfl
    rw [h2]
    exact .ok (a := (⟨a.value, a.errs ++ w.errs⟩ : Parsed)) h3 h4

/-- a context that provides less -/
theorem Agree.covers {k' : Ctx} {Q : α → β → Parser → Prop} {r : Outcome DecodeErr α} {g : Res β}
    (h : Agree k' p Q r g) (hq : k.quiet = true → k'.quiet = true) (hs : k.strict = true → k'.strict = true) :
    Agree k p Q r g := by
  refine ⟨fun a ha => ?_, fun e he hst => ?_⟩
  · obtain ⟨b, p', h1, h2, h3⟩ := h.1 a ha
    exact ⟨b, p', h1, h2, h3.weaken hq⟩
  · obtain ⟨e', p', h1, h2⟩ := h.2 e he (hs hst)
    exact ⟨e', p', h1, fun hk => h2 (hq hk)⟩

end

/-- agreement for every decoder, context, scope and state, with a bound `n` on the recursion -/
def SimAt (env : Doodle.Env) (q : Nat → Ctx) (n : Nat) : Prop :=
  ∀ (k : Ctx) (d : Decoder) (s : Scope Decoder) (g : Env) (c : ReadCtxt) (p : Parser),
    k.Sound → Fragment q k d → SRel s g → Sim k.bits c p → Holds k p →
    Agree k p (QV k.bits) (Decoder.parse env n d s c) (exec env.program n d g p)

/-! ### loops -/

section
variable {k : Ctx}

theorem QA.push {b : Bool} {acc : Decoder.Acc} {vs : List Value} {w : Parsed} {v : Value} {p : Parser}
    (ha : ERL acc.value.1 vs) (hw : QV b w v p) : QA b (Decoder.push acc w) (vs ++ [v]) p := ⟨ha.snoc hw.1, hw.2⟩

theorem fold_sim {σ τ : Type} (f : σ → τ) (P : σ → ReadCtxt → Outcome DecodeErr Parsed)
    (elt : τ → List Value → Parser → Res Value) : ∀ (xs : List σ)
    (_ : ∀ x ∈ xs, ∀ vs c p, Sim k.bits c p → Holds k p → Agree k p (QV k.bits) (P x c) (elt (f x) vs p))
    (acc : Decoder.Acc) (vs : List Value) (p : Parser), QA k.bits acc vs p → Holds k p →
    Agree k p (QA k.bits) (Decoder.foldItems P xs acc) (forLoop elt (xs.map f) vs p)
  | [], _, acc, vs, p, ha, _ => .here ha
  | x :: xs, h, acc, vs, p, ha, hp => by
    simp only [Decoder.foldItems, List.map_cons, forLoop]
    refine (h x (by simp) vs acc.value.2 p ha.2 hp).bind fun w v p' hw haf => ?_
    exact fold_sim f P elt xs (fun y hy => h y (List.mem_cons_of_mem _ hy)) _ _ p' (QA.push ha.1 hw) (hp.after haf)

theorem seq_sim {q : Nat → Ctx} {s : Scope Decoder} (pre : String) (hpre : ∀ i : Nat, reserved (pre ++ toString i) = true)
    (P : Decoder → ReadCtxt → Outcome DecodeErr Parsed) (elt : Decoder → Env → Parser → Res Value)
    (h : ∀ d, Fragment q k d → ∀ g c p, SRel s g → Sim k.bits c p → Holds k p →
      Agree k p (QV k.bits) (P d c) (elt d g p)) : ∀ (ds : List Decoder) (_ : FragmentAll q k ds) (i : Nat) (g : Env)
    (acc : Decoder.Acc) (vs : List Value) (p : Parser), SRel s g → QA k.bits acc vs p → Holds k p →
    Agree k p (QA k.bits) (Decoder.foldItems P ds acc) (seqLoop pre elt ds i g vs p)
  | [], _, i, g, acc, vs, p, hg, ha, _ => .here ha
  | d :: ds, ⟨hd, hds⟩, i, g, acc, vs, p, hg, ha, hp => by
    simp only [Decoder.foldItems, seqLoop]
    refine (h d hd g acc.value.2 p hg ha.2 hp).bind fun w v p' hw haf => ?_
    exact seq_sim pre hpre P elt h ds hds _ _ _ _ p' (hg.hidden (hpre i)) (QA.push ha.1 hw) (hp.after haf)

theorem while_sim {tree : MatchTree} (ht : RootTree tree)
    (hend : if k.strict = true then ∃ j, tree.accept = some (j + 1) else tree.accept ≠ some 0) (hk : k.Sound)
    {s : Scope Decoder} {g : Env} (hg : SRel s g)
    (P : ReadCtxt → Outcome DecodeErr Parsed) (elt : Env → Parser → Res Value)
    (h : ∀ g c p, SRel s g → Sim k.bits c p → Holds k p → Agree k p (QV k.bits) (P c) (elt g p)) :
    ∀ (n : Nat) (acc : Decoder.Acc) (vs : List Value) (p : Parser), QA k.bits acc vs p → Holds k p →
    Agree k p (QA k.bits) (Decoder.whileLoop tree P n acc) (whileLoop tree elt g n vs p)
  | 0, _, _, _, _, _ => .fuel
  | n + 1, acc, vs, p, ha, hp => by
    have hs := ha.2
    have hle := (input_length hs).1
    simp only [Decoder.whileLoop, whileLoop, remaining_ok hs, Res.pure, Res.bind]
    by_cases hlt : acc.value.2.offset < acc.value.2.input.length
    · rw [if_pos (by omega)]
      obtain ⟨g1, g2⟩ := matchRoot_sim ht hs hlt
      cases hm : tree.matches acc.value.2 with
      | none =>
        refine .err fun hst => ?_
        obtain ⟨e, p', h1, h2⟩ := g2 hm (fun hb => hp.exact (hk hb hst))
        rw [h1]
        exact ⟨e, p', rfl, fun _ => h2⟩
      | some ix =>
        rw [g1 ix hm]
        cases ix with
        | zero =>
          simp only [if_true]
          refine (h _ acc.value.2 p ((hg.accum vs).hidden (by decide +kernel)) hs hp).bind fun w v p' hw haf => ?_
          exact while_sim ht hend hk hg P elt h n _ _ p' (QA.push ha.1 hw) (hp.after haf)
        | succ j => simp only [Nat.add_eq_zero_iff, Nat.succ_ne_self, and_false, if_false]; exact .here ha
    · rw [if_neg (by omega)]
      have hnil : acc.value.2.input.drop acc.value.2.offset = [] := List.drop_eq_nil_of_le (by omega)
      have hm : tree.matches acc.value.2 = tree.accept := by
        unfold MatchTree.matches
        rw [hnil]
        cases tree with
        | node a bs => rfl
      rw [hm]
      split at hend
      · obtain ⟨j, hj⟩ := hend
        rw [hj]; exact .here ha
      · next hst =>
        cases hacc : tree.accept with
        | none => exact .err fun h => absurd h hst
        | some ix =>
          cases ix with
          | zero => exact absurd hacc hend
          | succ j => exact .here ha

theorem until_sim {tree : MatchTree} (ht : RootTree tree) (hst : k.strict = false)
    {s : Scope Decoder} {g : Env} (hg : SRel s g)
    (P : ReadCtxt → Outcome DecodeErr Parsed) (elt : Env → Parser → Res Value)
    (hfirst : ∀ c w, P c = .ok w → ∃ x c', c.readByte = some (x, c') ∧ MoreAt tree x)
    (h : ∀ g c p, SRel s g → Sim k.bits c p → Holds k p → Agree k p (QV k.bits) (P c) (elt g p)) :
    ∀ (n : Nat) (acc : Decoder.Acc) (vs : List Value) (p : Parser), QA k.bits acc vs p → Holds k p →
    Agree k p (QA k.bits) (Decoder.untilLoop tree P n acc) (untilLoop tree elt g (n + 1) vs p)
  | 0, _, _, _, _, _ => .fuel
  | n + 1, acc, vs, p, ha, hp => by
    have hs := ha.2
    have hle := (input_length hs).1
    have hne : ∀ {e : DecodeErr} {y : Res (List Value)}, Agree k p (QA k.bits) (.err e) y := fun {e y} =>
      .err fun h => by rw [hst] at h; cases h
    cases hP : P acc.value.2 with
    | panic => simp only [Decoder.untilLoop, hP]; exact .panic
    | fuel => simp only [Decoder.untilLoop, hP]; exact .fuel
    | err e => simp only [Decoder.untilLoop, hP]; exact hne
    | ok w =>
      obtain ⟨x, c', hr, hx⟩ := hfirst _ _ hP
      have hlt : acc.value.2.offset < acc.value.2.input.length := by
        refine Nat.lt_of_not_le fun hle => ?_
        rw [(readByte_iff acc.value.2).2 hle] at hr
        cases hr
      obtain ⟨j, hj⟩ := hx (c'.input.drop c'.offset)
      have hm : tree.matches acc.value.2 = some (j + 1) := by
        unfold MatchTree.matches
        rw [readByte_rest hr]
        exact hj
      obtain ⟨b, p', h1, h2, h3⟩ := (h (.single "matching_ix" (.ofUsize (j + 1)) (accum vs g)) acc.value.2 p
        ((hg.accum vs).hidden (by decide +kernel)) hs hp).1 w hP
      have hgen : untilLoop tree elt g (n + 2) vs p = untilLoop tree elt g (n + 1) (vs ++ [b]) p' := by
        rw [untilLoop]
        simp only [remaining_ok hs, Res.pure, Res.bind]
        rw [if_pos (by omega), (matchRoot_sim ht hs hlt).1 _ hm]
        simp only [Nat.add_eq_zero_iff, Nat.succ_ne_self, and_false, if_false]
        rw [h1]
      rw [hgen]
      have hbind : Decoder.untilLoop tree P (n + 1) acc =
          match tree.matches w.value.2 with
          | none => .err (.noValidBranch w.value.2.offset)
          | some 0 => .ok (Decoder.push acc w)
          | some (_ + 1) => Decoder.untilLoop tree P n (Decoder.push acc w) := by
        rw [Decoder.untilLoop, hP]; rfl
      rw [hbind]
      have hq := QA.push ha.1 h2
      have hs' : Sim k.bits w.value.2 p' := h2.2
      have hle' := (input_length hs').1
      suffices hrest : Agree k p' (QA k.bits) (match tree.matches w.value.2 with
          | none => .err (.noValidBranch w.value.2.offset)
          | some 0 => .ok (Decoder.push acc w)
          | some (_ + 1) => Decoder.untilLoop tree P n (Decoder.push acc w)) (untilLoop tree elt g (n + 1) (vs ++ [b]) p') by
        have := Agree.bind (k := k) (p := p) (Q := fun (a : Unit) (b : Unit) q => q = p') (Q' := QA k.bits)
          (r := .ok ()) (g := .ok () p') (f := fun _ => (match tree.matches w.value.2 with
          | none => .err (.noValidBranch w.value.2.offset)
          | some 0 => .ok (Decoder.push acc w)
          | some (_ + 1) => Decoder.untilLoop tree P n (Decoder.push acc w)))
          (h := fun _ q => untilLoop tree elt g (n + 1) (vs ++ [b]) q) (.ok rfl h3)
          (fun _ _ q hq _ => by subst hq; exact hrest)
        exact this
      cases hm' : tree.matches w.value.2 with
      | none => exact .err fun h => by rw [hst] at h; cases h
      | some ix =>
        cases ix with
        | succ j' => exact until_sim ht hst hg P elt hfirst h n _ _ p' hq (hp.after h3)
        | zero =>
          rw [untilLoop]
          simp only [remaining_ok hs', Res.pure, Res.bind]
          by_cases hlt' : w.value.2.offset < w.value.2.input.length
          · rw [if_pos (by omega), (matchRoot_sim ht hs' hlt').1 _ hm']
            simp only [if_true]
            rw [if_neg (by simp)]
            exact .here hq
          · rw [if_neg (by omega)]
            exact .here hq

theorem untilDone_sim {s : Scope Decoder} {g : Env} (hg : SRel s g)
    (P : ReadCtxt → Outcome DecodeErr Parsed) (elt : Env → Parser → Res Value)
    (h : ∀ g c p, SRel s g → Sim k.bits c p → Holds k p → Agree k p (QV k.bits) (P c) (elt g p))
    (done done' : Value → List Value → Panicky Bool)
    (hdone : ∀ v w vs ws, ER v w → ERL vs ws → PLe (fun a b => b = a) (done v vs) (done' w ws)) :
    ∀ (n : Nat) (acc : Decoder.Acc) (vs : List Value) (p : Parser), QA k.bits acc vs p → Holds k p →
    Agree k p (QA k.bits) (Decoder.untilDoneLoop done P n acc) (untilDoneLoop done' elt g n vs p)
  | 0, _, _, _, _, _ => .fuel
  | n + 1, acc, vs, p, ha, hp => by
    simp only [Decoder.untilDoneLoop, untilDoneLoop]
    refine (h _ acc.value.2 p (hg.accum vs) ha.2 hp).bind fun w v p' hw haf => ?_
    refine (Agree.pure (hdone _ _ _ _ hw.1 (ha.1.snoc hw.1))).bind fun d d' p'' hd haf' => ?_
    obtain ⟨rfl, rfl⟩ := hd
    cases d' with
    | true => exact .here (QA.push ha.1 hw)
    | false =>
      exact untilDone_sim hg P elt h done done' hdone n _ _ p'' (QA.push ha.1 hw) (hp.after haf)

theorem accum_sim {s : Scope Decoder} {g : Env} (hg : SRel s g) {done update : Expr} (hd : ExprOk done)
    (hu : ExprOk update)
    (P : ReadCtxt → Outcome DecodeErr Parsed) (elt : Env → Parser → Res Value)
    (h : ∀ g c p, SRel s g → Sim k.bits c p → Holds k p → Agree k p (QV k.bits) (P c) (elt g p)) :
    ∀ (n : Nat) (x y : Value) (acc : Decoder.Acc) (vs : List Value) (p : Parser), ER x y → QA k.bits acc vs p →
    Holds k p →
    Agree k p (fun (r : Value × Decoder.Acc) (t : Value × List Value) p' => ER r.1 t.1 ∧ QA k.bits r.2 t.2 p')
      (Decoder.accumLoop (fun accum vs => Decoder.lambdaBool done s (.tuple [accum, .seq (.strict vs)]))
        (fun accum v => update.evalLambda s (.tuple [accum, v])) P n x acc)
      (accumLoop done update elt g n y vs p)
  | 0, _, _, _, _, _, _, _, _ => .fuel
  | n + 1, x, y, acc, vs, p, hxy, ha, hp => by
    have hg' : SRel s (unfold y vs g) := (hg.hidden (by decide +kernel)).hidden (by decide +kernel)
    simp only [Decoder.accumLoop, accumLoop]
    refine (Agree.pure (lambdaBool_ok hg' hd (ERL.tuple (.cons hxy (.cons ha.1.seq .nil))))).bind
      fun d d' p' hdd haf => ?_
    obtain ⟨rfl, rfl⟩ := hdd
    cases d' with
    | true => exact .here ⟨hxy, ha⟩
    | false =>
      simp only [Bool.false_eq_true, if_false]
      refine (h _ acc.value.2 p' hg' ha.2 hp).bind fun w v p'' hw haf' => ?_
      refine (Agree.pure (evalLambda_ok (hg'.hidden (by decide +kernel)) hu
        (ERL.tuple (.cons hxy (.cons hw.1 .nil))))).bind fun x' y' p3 hx' haf'' => ?_
      obtain ⟨rfl, hx'⟩ := hx'
      exact accum_sim hg hd hu P elt h n _ _ _ _ p3 hx' (QA.push ha.1 hw) (hp.after haf')

end

/-! ### contexts -/

theorem Leak.restore : ∀ {leak : ViewStack} (_ : Leak leak) (s : ViewStack),
    ViewStack.restore (leak ++ s) = ViewStack.restore s
  | [], _, _ => rfl
  | l :: leak, h, s => by
    obtain ⟨o, rfl⟩ := h l (by simp)
    exact Leak.restore (leak := leak) (fun l hl => h l (List.mem_cons_of_mem _ hl)) s

theorem recover_junk : ∀ {j : ViewStack} (_ : ∀ l ∈ j, Lens.recover l = none) (s : ViewStack),
    ViewStack.recover (j ++ s) = ViewStack.recover s
  | [], _, _ => rfl
  | l :: j, h, s => by
    show ViewStack.recover (l :: (j ++ s)) = _
    rw [ViewStack.recover, h l (by simp)]
    exact recover_junk (j := j) (fun l hl => h l (List.mem_cons_of_mem _ hl)) s

theorem Keep.back {p p' : Parser} (h : Keep p p') : { p' with offset := p.offset, stack := p.stack } = p := by
  obtain ⟨h1, h2, h3⟩ := h
  cases p; cases p'
  simp only at h1 h2 h3
  subst h1 h2 h3
  rfl

/-- closing a context that was opened by `l` brings the parser back -/
theorem closePeek_back {q : Bool} {p p1 p' : Parser} {l : Lens} (hl : l.restore = some p.offset) (hk : Keep p p1)
    (hst : p1.stack = l :: p.stack) (h : After q p1 p') : p'.closePeek = .ok () p := by
  obtain ⟨leak, h1, h2, _⟩ := h.stack
  unfold Parser.closePeek
  rw [h1, h2.restore, hst, ViewStack.restore, hl]
  simp only [(hk.trans h.keep).back]

theorem recover_back {p p' : Parser} {l : Lens} (hl : l.recover = some p.offset)
    (h : Junk { p with stack := l :: p.stack } p') : p'.recover = .ok () p := by
  obtain ⟨j, h1, h2⟩ := h.stack
  have hk : Keep p p' := ⟨h.keep.buffer, h.keep.start, h.keep.max⟩
  unfold Parser.recover
  rw [h1, recover_junk h2, ViewStack.recover, hl]
  simp only [hk.back]

/-- a context on top of the stack that has no limit of its own -/
theorem sim_push {b : Bool} {c : ReadCtxt} {p : Parser} {l : Lens}
    (hl : ∀ s, ViewStack.getLimit (l :: s) = ViewStack.getLimit s) (h : Sim b c p) :
    Sim b c { p with stack := l :: p.stack } := by
  have hlim : ({ p with stack := l :: p.stack } : Parser).currentLimit = p.currentLimit := by
    simp only [Parser.currentLimit, hl]
  refine ⟨⟨h.1.max, h.1.bits, h.1.bytes⟩, fun hb => ?_, fun hb => ?_⟩
  · have := h.2.1 hb
    unfold SimBytes at this ⊢
    rw [hlim]; exact this
  · have := h.2.2 hb
    unfold SimBits at this ⊢
    rw [hlim]; exact this

theorem holds_push {k : Ctx} {p : Parser} {l : Lens} (hl : ∀ s, ViewStack.getLimit (l :: s) = ViewStack.getLimit s)
    (h : Holds k p) : Holds k { p with stack := l :: p.stack } := by
  have hlim : ({ p with stack := l :: p.stack } : Parser).currentLimit = p.currentLimit := by
    simp only [Parser.currentLimit, hl]
  exact ⟨h.main, (fun hw => by rw [hl]; exact h.whole hw), (fun he m hm => h.exact he m (by rw [← hlim]; exact hm))⟩

theorem Holds.inner {k : Ctx} {p : Parser} (h : Holds k p) : Holds k.inner p := ⟨h.main, h.whole, h.exact⟩

section
variable {k : Ctx} {q : Nat → Ctx} {s : Scope Decoder}

/-- `Parallel`: the parser is back at the start whenever an alternative is tried -/
theorem alts_sim (hk : k.quiet = false) {c : ReadCtxt} {p0 : Parser} (hs : Sim k.bits c p0) (hp : Holds k p0)
    (off : Nat) (P : Decoder → Outcome DecodeErr Parsed) (elt : Decoder → Env → Parser → Res Value)
    (h : ∀ d, Fragment q k.inner d → ∀ g p, SRel s g → Sim k.bits c p → Holds k.inner p →
      Agree k.inner p (QV k.bits) (P d) (elt d g p)) :
    ∀ (ds : List Decoder) (d : Decoder) (i : Nat) (g : Env) (p1 : Parser), FragmentAll q k.inner (d :: ds) → SRel s g →
      (p1 = p0.startAlt ∨ (ds = [] ∧ p1 = p0)) →
      Agree k p0 (QV k.bits) (Decoder.parallelLoop P off i (d :: ds)) (altsLoop elt (d :: ds) g p1)
  | ds, d, i, g, p1, hf, hg, hp1 => by
    have hs1 : Sim k.bits c p1 := by
      rcases hp1 with rfl | ⟨_, rfl⟩
      · exact sim_push (fun _ => rfl) hs
      · exact hs
    have hh1 : Holds k.inner p1 := by
      rcases hp1 with rfl | ⟨_, rfl⟩
      · exact holds_push (fun _ => rfl) hp.inner
      · exact hp.inner
    have haft : ∀ p', After true p1 p' → After k.quiet p0 p' := by
      intro p' ha
      rw [hk]
      rcases hp1 with rfl | ⟨_, rfl⟩
      · obtain ⟨leak, h1, h2, h3⟩ := ha.stack
        refine ⟨⟨ha.keep.buffer, ha.keep.start, ha.keep.max⟩, ha.mode, [.alts p0.offset], ?_, ?_, fun h => nomatch h⟩
        · rw [h1, h3 rfl]; rfl
        · intro l hl; rw [List.mem_singleton.mp hl]; exact ⟨_, rfl⟩
      · exact ha.weaken (fun h => nomatch h)
    obtain ⟨i1, i2⟩ := h d hf.1 g p1 hg hs1 hh1
    simp only [Decoder.parallelLoop]
    cases hr : P d with
    | panic => exact .panic
    | fuel => exact .fuel
    | ok w =>
      obtain ⟨v, p', h1, h2, h3⟩ := i1 w hr
      have he : altsLoop elt (d :: ds) g p1 = .ok v p' := by
        cases ds with
        | nil => rw [altsLoop, h1]
        | cons d' ds => rw [altsLoop, h1]
      rw [he]
      exact .ok ⟨⟨h2.1.1, by rw [h2.1.2]; rfl⟩, h2.2⟩ (haft p' h3)
    | err e =>
      obtain ⟨e', p', h1, h2⟩ := i2 e hr rfl
      have h2 := h2 rfl
      cases ds with
      | nil =>
        simp only [Decoder.parallelLoop]
        refine .err fun _ => ⟨e', p', by rw [altsLoop, h1], fun hq => ?_⟩
        rw [hk] at hq; cases hq
      | cons d' ds =>
        rcases hp1 with hp1 | ⟨h3, _⟩
        · subst hp1
          have hrec := recover_back (l := .alts p0.offset) rfl h2
          rw [altsLoop, h1]
          simp only [Parser.nextAlt, hrec, OpRes.bind]
          cases hds : ds.isEmpty with
          | true =>
            have : ds = [] := by cases ds with | nil => rfl | cons _ _ => cases hds
            subst this
            exact alts_sim hk hs hp off P elt h [] d' (i + 1) _ p0 hf.2 (hg.hidden (by decide +kernel))
              (.inr ⟨rfl, rfl⟩)
          | false =>
            exact alts_sim hk hs hp off P elt h ds d' (i + 1) _ p0.startAlt hf.2 (hg.hidden (by decide +kernel))
              (.inl rfl)
        · cases h3

/-- `Match` -/
theorem match_sim {p : Parser} {v w : Value} (hv : ER v w) {g : Env} (hg : SRel s g)
    (P : List (String × Value) → Decoder → Outcome DecodeErr Parsed) (elt : List (String × Value) → Decoder → Res Value)
    (h : ∀ d, Fragment q k d → ∀ bs bs', EB bs bs' → Agree k p (QV k.bits) (P bs d) (elt bs' d)) :
    ∀ (arms : List (Pattern × Decoder)) (i : Nat), FragmentArms q k arms →
      Agree k p (QV k.bits) (Decoder.matchLoop P v i arms) (matchLoop elt w arms)
  | [], _, _ => .panic
  | (pat, d) :: arms, i, ⟨h1, h2, h3⟩ => by
    simp only [Decoder.matchLoop, matchLoop]
    obtain ⟨e1, e2⟩ | ⟨bs, bs', e1, e2, e3⟩ := (matchesPat_er h1 hv).both
    · rw [e1, e2]; exact match_sim hv hg P elt h arms (i + 1) h3
    · rw [e1, e2]
      simp only
      have h4 := h d h2 bs bs' e3
      cases hr : P bs d with
      | panic => exact .panic
      | fuel => exact .fuel
      | err e => rw [hr] at h4; exact .err (h4.2 e rfl)
      | ok a =>
        rw [hr] at h4
        obtain ⟨u, p', h5, h6, h7⟩ := h4.1 a rfl
        rw [h5]
        exact .ok ⟨⟨h6.1.1, by rw [h6.1.2]; rfl⟩, h6.2⟩ h7

end

end Gen
end Doodle
