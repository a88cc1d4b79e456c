import Verif.Lemmas.TypedCompile

/-!
Related decoders parse alike; hence programs made by the two compilers do.
-/

namespace Doodle
namespace TCompiler

open Decoder (parse foldItems whileLoop untilLoop betweenLoop parallelLoop matchLoop)

variable {τ : Type}

/-! ### decoders without calls -/

mutual
theorem refl_of {C : Nat → Nat → Prop} {o : BuildOpts} {M : List ((Nat × Next) × Nat)} {f : Format} {next : Next}
    {d : Decoder} (h : Compiles (.of Module.empty o M) f next d) : DRel C d d :=
  match h with
  | .itemVar hi _ _ => nomatch hi
  | .decodeBytes h => .decodeBytes (refl_of h)
  | .parseFromView h => .parseFromView (refl_of h)
  | .letView h => .letView (refl_of h)
  | .variant h => .variant (refl_of h)
  | .repeatCount h => .repeatCount (refl_of h)
  | .repeatUntilLast h => .repeatUntilLast (refl_of h)
  | .repeatUntilSeq h => .repeatUntilSeq (refl_of h)
  | .forEach h => .forEach (refl_of h)
  | .accumUntil h => .accumUntil (refl_of h)
  | .maybe h => .maybe (refl_of h)
  | .peek h => .peek (refl_of h)
  | .slice h => .slice (refl_of h)
  | .bits h => .bits (refl_of h)
  | .withRelativeOffset h => .withRelativeOffset (refl_of h)
  | .map h => .map (refl_of h)
  | .where_ h => .where_ (refl_of h)
  | .enforce h => .enforce (refl_of h)
  | .permit h => .permit (refl_of h)
  | .let_ h => .let_ (refl_of h)
  | .dynamic h => .dynamic (refl_of h)
  | .liftedSome h => .liftedSome (refl_of h)
  | .pos => .pos
  | .fail => .fail
  | .endOfInput => .endOfInput
  | .align => .align
  | .byte => .byte
  | .compute => .compute
  | .skipRemainder => .skipRemainder
  | .liftedNone => .liftedNone
  | .captureBytes => .captureBytes
  | .readArray => .readArray
  | .reifyView => .reifyView
  | .phantom => .phantom
  | .apply => .apply
  | .hint h => refl_of h
  | .peekNot _ h => .peekNot (refl_of h)
  | .union h _ => .branch (fun _ => rfl) (refl_all h)
  | .unionNondet h => .parallel (refl_all h)
  | .tuple h => .tuple (refl_fields h)
  | .sequence h => .sequence (refl_fields h)
  | .match_ h => .match_ (refl_branches h)
  | .repeat_ _ h _ => .while_ (fun _ => rfl) (refl_of h)
  | .repeat1 _ h _ => .until_ (fun _ => rfl) (refl_of h)
  | .repeatBetween _ _ h _ => .repeatBetween (fun _ => rfl) (refl_of h)
  | .letFormat h h' => .letFormat (refl_of h) (refl_of h')
  | .monadSeq h h' => .monadSeq (refl_of h) (refl_of h')

theorem refl_all {C : Nat → Nat → Prop} {o : BuildOpts} {M : List ((Nat × Next) × Nat)} {fs : List Format}
    {next : Next} {ds : List Decoder} (h : CompilesAll (.of Module.empty o M) fs next ds) : DRelAll C ds ds :=
  match h with
  | .anil => .nil
  | .acons h hs => .cons (refl_of h) (refl_all hs)

theorem refl_fields {C : Nat → Nat → Prop} {o : BuildOpts} {M : List ((Nat × Next) × Nat)} {fs : List Format}
    {next : Next} {ds : List Decoder} (h : CompilesFields (.of Module.empty o M) fs next ds) : DRelAll C ds ds :=
  match h with
  | .fnil => .nil
  | .fcons h hs => .cons (refl_of h) (refl_fields hs)

theorem refl_branches {C : Nat → Nat → Prop} {o : BuildOpts} {M : List ((Nat × Next) × Nat)}
    {fs : List (Pattern × Format)} {next : Next} {ds : List (Pattern × Decoder)}
    (h : CompilesBranches (.of Module.empty o M) fs next ds) : DRelBranches C ds ds :=
  match h with
  | .bnil => .nil
  | .bcons h hs => .cons (refl_of h) (refl_branches hs)
end

/-! ### related decoders parse alike -/

/-- all decoders of a scope are related to themselves -/
def ScopeOk (C : Nat → Nat → Prop) : Scope Decoder → Prop
  | .empty => True
  | .multi _ p => ScopeOk C p
  | .single _ _ p => ScopeOk C p
  | .decoder _ d p => DRel C d d ∧ ScopeOk C p
  | .view _ _ p => ScopeOk C p

theorem ScopeOk.get {C : Nat → Nat → Prop} {x : String} : ∀ {s : Scope Decoder} {d : Decoder}, ScopeOk C s →
    s.getDecoder x = some d → DRel C d d
  | .empty, _, _, h => by cases h
  | .multi _ p, _, hs, h => ScopeOk.get (s := p) hs h
  | .single _ _ p, _, hs, h => ScopeOk.get (s := p) hs h
  | .view _ _ p, _, hs, h => ScopeOk.get (s := p) hs h
  | .decoder n d p, _, hs, h => by
    simp only [Scope.getDecoder] at h
    split at h
    · cases h; exact hs.1
    · exact ScopeOk.get (s := p) hs.2 h

theorem ScopeOk.bindings {C : Nat → Nat → Prop} {s : Scope Decoder} (hs : ScopeOk C s) (bs : List (String × Value)) :
    ScopeOk C (s.withBindings bs) := by
  first
    | exact hs
    | (induction bs generalizing s with
       | nil => exact hs
       | cons b bs ih => exact ih hs)

/-- programs whose related slots hold related decoders -/
structure PRel (C : Nat → Nat → Prop) (env env' : Env) : Prop where
  slots : ∀ k k', C k k' → ∃ d d', env.program[k]? = some d ∧ env'.program[k']? = some d' ∧ DRel C d d'
  same : env.compileOne = env'.compileOne
  refl : ∀ f d, env.compileOne f = .ok (some d) → DRel C d d

theorem TreeEq.fn {t t' : MatchTree} (h : TreeEq t t') : t.matches = t'.matches :=
  funext fun c => h _

theorem whileLoop_eq {t t' : MatchTree} (h : TreeEq t t') (p : ReadCtxt → Outcome DecodeErr Parsed) :
    ∀ n acc, whileLoop t p n acc = whileLoop t' p n acc
  | 0, _ => rfl
  | n + 1, acc => by
    unfold whileLoop
    rw [h.fn]
    split
    · rfl
    · exact congrArg _ (funext fun _ => whileLoop_eq h p n _)
    · rfl

theorem untilLoop_eq {t t' : MatchTree} (h : TreeEq t t') (p : ReadCtxt → Outcome DecodeErr Parsed) :
    ∀ n acc, untilLoop t p n acc = untilLoop t' p n acc
  | 0, _ => rfl
  | n + 1, acc => by
    unfold untilLoop
    rw [h.fn]
    refine congrArg _ (funext fun w => ?_)
    split
    · rfl
    · rfl
    · exact untilLoop_eq h p n _

theorem betweenLoop_eq {t t' : MatchTree} (h : TreeEq t t') (min max : Nat) (start : ReadCtxt)
    (p : ReadCtxt → Outcome DecodeErr Parsed) :
    ∀ n acc, betweenLoop t min max start p n acc = betweenLoop t' min max start p n acc
  | 0, _ => rfl
  | n + 1, acc => by
    unfold betweenLoop
    rw [h.fn]
    split
    · rfl
    · split
      · rfl
      · exact congrArg _ (funext fun _ => betweenLoop_eq h min max start p n _)

theorem DRelAll.get {C : Nat → Nat → Prop} : ∀ {ds ds' : List Decoder}, DRelAll C ds ds' → ∀ i : Nat,
    (ds[i]? = none ∧ ds'[i]? = none) ∨ ∃ d d', ds[i]? = some d ∧ ds'[i]? = some d' ∧ DRel C d d'
  | _, _, .nil, i => .inl ⟨by simp, by simp⟩
  | _, _, .cons h hs, 0 => .inr ⟨_, _, rfl, rfl, h⟩
  | _, _, .cons h hs, i + 1 => by simpa using DRelAll.get hs i

theorem foldItems_eq {C : Nat → Nat → Prop} {p p' : Decoder → ReadCtxt → Outcome DecodeErr Parsed}
    (hp : ∀ d d' c, DRel C d d' → p d c = p' d' c) :
    ∀ {ds ds' : List Decoder}, DRelAll C ds ds' → ∀ acc, foldItems p ds acc = foldItems p' ds' acc
  | _, _, .nil, _ => rfl
  | _, _, .cons h hs, acc => by
    unfold foldItems
    rw [hp _ _ _ h]
    exact congrArg _ (funext fun w => foldItems_eq hp hs _)

theorem parallelLoop_eq {C : Nat → Nat → Prop} {p p' : Decoder → Outcome DecodeErr Parsed}
    (hp : ∀ d d', DRel C d d' → p d = p' d') (off : Nat) :
    ∀ {ds ds' : List Decoder}, DRelAll C ds ds' → ∀ i, parallelLoop p off i ds = parallelLoop p' off i ds'
  | _, _, .nil, _ => rfl
  | _, _, .cons h hs, i => by
    unfold parallelLoop
    rw [hp _ _ h, parallelLoop_eq hp off hs]

theorem matchLoop_eq {C : Nat → Nat → Prop} {p p' : List (String × Value) → Decoder → Outcome DecodeErr Parsed}
    (hp : ∀ bs d d', DRel C d d' → p bs d = p' bs d') (head : Value) :
    ∀ {ds ds' : List (Pattern × Decoder)}, DRelBranches C ds ds' → ∀ i, matchLoop p head i ds = matchLoop p' head i ds'
  | _, _, .nil, _ => rfl
  | _, _, .cons h hs, i => by
    unfold matchLoop
    rw [matchLoop_eq hp head hs]
    split
    · rw [hp _ _ _ h]
    · rfl

theorem parse_eq {C : Nat → Nat → Prop} {env env' : Env} (he : PRel C env env') (n : Nat) :
    ∀ d d' s c, DRel C d d' → ScopeOk C s → parse env n d s c = parse env' n d' s c := by
  induction n with
  | zero => intro d d' s c _ _; rfl
  | succ n ih =>
    intro d d' s c hd hs
    cases hd with
    | @call k k' args views hk =>
      obtain ⟨d, d', h1, h2, h3⟩ := he.slots _ _ hk
      simp only [parse, h1, h2]
      refine congrArg _ (funext fun _ => congrArg _ (funext fun _ => ?_))
      exact ih _ _ _ _ h3 trivial
    | branch ht hds =>
      simp only [parse, ht.fn]
      split
      · rfl
      · next i _ =>
        rcases hds.get i with ⟨h1, h2⟩ | ⟨d, d', h1, h2, h3⟩
        · rw [h1, h2]; rfl
        · rw [h1, h2]
          exact congrArg (fun w : Outcome DecodeErr Parsed => w >>= fun w => Outcome.ok (WithErr.map w fun r =>
            (Value.branch i r.fst, r.snd))) (ih _ _ _ c h3 hs)
    | parallel hds =>
      simp only [parse]
      exact parallelLoop_eq (fun d d' h => ih _ _ _ _ h hs) _ hds _
    | tuple hds =>
      simp only [parse]
      rw [foldItems_eq (fun d d' c h => ih _ _ _ c h hs) hds]
    | sequence hds =>
      simp only [parse]
      rw [foldItems_eq (fun d d' c h => ih _ _ _ c h hs) hds]
    | match_ hds =>
      simp only [parse]
      refine congrArg _ (funext fun v => ?_)
      exact matchLoop_eq (fun bs d d' h => ih _ _ (s.withBindings bs) c h (hs.bindings bs)) _ hds _
    | while_ ht hd =>
      simp only [parse, ih _ _ _ _ hd hs, whileLoop_eq ht]
    | until_ ht hd =>
      simp only [parse, ih _ _ _ _ hd hs, untilLoop_eq ht]
    | repeatBetween ht hd =>
      simp only [parse, ih _ _ _ _ hd hs, betweenLoop_eq ht]
    | dynamic hd =>
      simp only [parse, he.same]
      refine congrArg _ (funext fun _ => congrArg _ (funext fun f => ?_))
      split
      · next h => exact ih _ _ _ _ hd ⟨he.refl _ _ (by rw [he.same]; exact h), hs⟩
      · rfl
      · rfl
      · rfl
    | apply =>
      simp only [parse]
      cases h : Scope.getDecoder _ s with
      | none => rfl
      | some d => exact ih _ _ _ _ (hs.get h) hs
    | letFormat h1 h2 =>
      simp only [parse, ih _ _ _ _ h1 hs]
      refine congrArg _ (funext fun w => congrArg _ (funext fun r => ?_))
      exact ih _ _ _ _ h2 hs
    | monadSeq h1 h2 =>
      simp only [parse, ih _ _ _ _ h1 hs, ih _ _ _ _ h2 hs]
    | forEach hd =>
      simp only [parse]
      have : ∀ l v c, parse env n _ (.single l v s) c = parse env' n _ (.single l v s) c :=
        fun l v c => ih _ _ (.single l v s) c hd hs
      simp only [this]
    | @let_ x e d d' hd =>
      simp only [parse]
      exact congrArg _ (funext fun v => ih _ _ (.single x v s) c hd hs)
    | @letView x d d' hd =>
      simp only [parse]
      exact ih _ _ (.view x c s) c hd hs
    | variant hd => simp only [parse, ih _ _ _ _ hd hs]
    | repeatCount hd => simp only [parse, ih _ _ _ _ hd hs]
    | repeatUntilLast hd => simp only [parse, ih _ _ _ _ hd hs]
    | repeatUntilSeq hd => simp only [parse, ih _ _ _ _ hd hs]
    | maybe hd => simp only [parse, ih _ _ _ _ hd hs]
    | peek hd => simp only [parse, ih _ _ _ _ hd hs]
    | peekNot hd => simp only [parse, ih _ _ _ _ hd hs]
    | slice hd => simp only [parse, ih _ _ _ _ hd hs]
    | bits hd => simp only [parse, ih _ _ _ _ hd hs]
    | withRelativeOffset hd => simp only [parse, ih _ _ _ _ hd hs]
    | map hd => simp only [parse, ih _ _ _ _ hd hs]
    | where_ hd => simp only [parse, ih _ _ _ _ hd hs]
    | decodeBytes hd => simp only [parse, ih _ _ _ _ hd hs]
    | parseFromView hd => simp only [parse, ih _ _ _ _ hd hs]
    | accumUntil hd => simp only [parse, ih _ _ _ _ hd hs]
    | liftedSome hd => simp only [parse, ih _ _ _ _ hd hs]
    | enforce hd => simp only [parse, ih _ _ _ _ hd hs]
    | permit hd => simp only [parse, ih _ _ _ _ hd hs]
    | pos => simp only [parse]
    | fail => simp only [parse]
    | endOfInput => simp only [parse]
    | align => simp only [parse]
    | byte => simp only [parse]
    | compute => simp only [parse]
    | skipRemainder => simp only [parse]
    | liftedNone => simp only [parse]
    | captureBytes => simp only [parse]
    | readArray => simp only [parse]
    | reifyView => simp only [parse]
    | phantom => simp only [parse]

/-! ### whole programs -/

theorem drain_first [DecidableEq (TNext τ)] {m : Module} {o : TOpts τ} (hm : m.BytesOk) (ho : o.base.ord.Valid)
    (ho' : o.ord.Valid) {fuel : Nat} {f : TFormat τ} {st st' : TCompSt τ} {tgt : List (TFormat τ × TNext τ)}
    (hi : Inv m o st tgt) (hq : st.queue = []) (hf : f.Fit m)
    (h : drain m o fuel (queueCompile st f .empty).2 = .ok st') :
    ∃ ext, Inv m o st' (tgt ++ (f, .empty) :: ext) ∧ st'.queue = [] := by
  have hi' : Inv m o (queueCompile st f .empty).2 (tgt ++ [(f, .empty)]) := by
    have hlen := hi.len
    constructor
    · simp [queueCompile, hlen]
    · intro e he
      simp only [queueCompile, hq, List.mem_singleton] at he
      subst he
      simp [hlen]
    · simp [queueCompile, hq]
    · intro x hx
      obtain ⟨it, h1, h2⟩ := hi.map x hx
      exact ⟨it, h1, by rw [List.getElem?_append_left (List.getElem?_eq_some_iff.1 h2).1, h2]⟩
    · intro k t ht hk
      simp only [queueCompile, hq, List.map_cons, List.map_nil, List.mem_singleton] at hk
      have hlt : k < tgt.length := by
        have := (List.getElem?_eq_some_iff.1 ht).1
        rw [List.length_append, List.length_singleton] at this
        omega
      rw [List.getElem?_append_left hlt] at ht
      obtain ⟨d, h1, h2⟩ := hi.done k t ht (by rw [hq]; simp)
      refine ⟨d, ?_, h2⟩
      simp only [queueCompile]
      rw [List.getElem?_append_left (by omega)]
      exact h1
    · intro t ht
      rcases List.mem_append.1 ht with h | h
      · exact hi.fit t h
      · rw [List.mem_singleton] at h
        subst h
        exact hf
  obtain ⟨ext, h1, h2⟩ := drain_inv hm ho ho' fuel _ _ _ hi' h
  exact ⟨ext, by simpa using h1, h2⟩

theorem roots_inv [DecidableEq (TNext τ)] {m : Module} {o : TOpts τ} (hm : m.BytesOk) (ho : o.base.ord.Valid)
    (ho' : o.ord.Valid) {fuel : Nat} : ∀ (fs : List (TFormat τ)) {st st' : TCompSt τ}
    {tgt : List (TFormat τ × TNext τ)}, Inv m o st tgt → st.queue = [] → (∀ f ∈ fs, f.Fit m) →
    compileRoots m o fuel fs st = .ok st' → ∃ ext, Inv m o st' (tgt ++ ext) ∧ st'.queue = [] ∧
      ∀ f fs', fs = f :: fs' → ext[0]? = some (f, .empty)
  | [], st, st', tgt, hi, hq, _, h => by
    simp only [compileRoots] at h
    cases h
    exact ⟨[], by simpa using hi, hq, fun _ _ h => nomatch h⟩
  | f :: fs, st, st', tgt, hi, hq, hf, h => by
    simp only [compileRoots] at h
    obtain ⟨s1, h1, h2⟩ := Outcome.bind_eq_ok.1 h
    have h1 : drain m o fuel (queueCompile st f .empty).2 = .ok s1 := by
      cases f <;> first | exact h1 | cases h1
    obtain ⟨ext, hi1, hq1⟩ := drain_first hm ho ho' hi hq (hf f List.mem_cons_self) h1
    obtain ⟨ext', hi2, hq2, _⟩ := roots_inv hm ho ho' fs hi1 hq1 (fun g hg => hf g (List.mem_cons_of_mem _ hg)) h2
    refine ⟨(f, .empty) :: ext ++ ext', by simpa using hi2, hq2, ?_⟩
    intro g gs hg
    cases hg
    rfl

/-- the two compilers make programs that parse alike -/
theorem run_eq [DecidableEq Next] [DecidableEq (TNext τ)] {m : Module} {o : TOpts τ} (hm : m.BytesOk)
    (ho : o.base.ord.Valid) (ho' : o.ord.Valid) {fuel fuel' : Nat} {f : TFormat τ} {extra : List (TFormat τ)}
    (hf : f.Fit m) (hx : ∀ g ∈ extra, g.Fit m) {prog prog' : List Decoder}
    (h : Compiler.compileProgram m o.base fuel f.erase = .ok prog)
    (h' : compileProgram m o fuel' f extra = .ok prog') (n : Nat) (input : ReadCtxt) :
    Decoder.run ⟨prog, Compiler.compileOne o.base⟩ n input = Decoder.run ⟨prog', Compiler.compileOne o.base⟩ n input := by
  obtain ⟨M, ⟨d, hd, hc⟩, hM⟩ := Compiler.compileProgram_spec m o.base fuel f.erase prog h
  simp only [compileProgram] at h'
  obtain ⟨st, h1, h2⟩ := Outcome.bind_eq_ok.1 h'
  cases h2
  have hi : Inv m o (new : TCompSt τ) [] :=
    ⟨rfl, (fun _ h => nomatch h), List.nodup_nil, (fun _ h => nomatch h), (fun _ _ h => nomatch h), (fun _ h => nomatch h)⟩
  have hfit : ∀ g ∈ f :: extra, g.Fit m := by
    intro g hg
    rcases List.mem_cons.1 hg with rfl | hg
    · exact hf
    · exact hx g hg
  obtain ⟨tgt, hinv, hq, h0⟩ := roots_inv hm ho ho' (f :: extra) hi rfl hfit h1
  rw [List.nil_append] at hinv
  have hdone : ∀ (k : Nat) (t : TFormat τ × TNext τ), tgt[k]? = some t → ∃ d, st.decoders[k]? = some d ∧ Agree m o.base st.map t.1 t.2 d := by
    intro k t ht
    obtain ⟨d, h1, h2⟩ := hinv.done k t ht (by rw [hq]; simp)
    exact ⟨d, h1, h2 _ fun _ h => h⟩
  have hp : PRel (CallRel m M st.map) ⟨prog, Compiler.compileOne o.base⟩ ⟨st.decoders, Compiler.compileOne o.base⟩ := by
    refine ⟨?_, rfl, ?_⟩
    · rintro k k' ⟨level, nx, tnx, it, hit, hk, hk', hrel⟩
      obtain ⟨it1, d1, h3, h4, h5⟩ := hM level nx k hk
      rw [hit] at h3
      cases h3
      obtain ⟨g, ⟨it2, h6, h7, h8⟩, h9⟩ := hinv.map _ hk'
      rw [hit] at h6
      cases h6
      obtain ⟨d2, h10, h11⟩ := hdone _ _ h9
      refine ⟨d1, d2, h4, h10, h11 M nx d1 ?_ ?_⟩
      · rw [h7]; exact hrel
      · rw [h7]; exact h5
    · intro g d hg
      obtain ⟨M1, hc1⟩ := Compiler.compileOne_spec o.base g d hg
      exact refl_of hc1
  obtain ⟨d2, h3, h4⟩ := hdone 0 _ (h0 f extra rfl)
  have hdd := h4 M .empty d (.inl .empty) hc
  have e1 : Decoder.run ⟨prog, Compiler.compileOne o.base⟩ n input = parse ⟨prog, Compiler.compileOne o.base⟩ n d .empty input := by
    simp only [Decoder.run, hd]; rfl
  have e2 : Decoder.run ⟨st.decoders, Compiler.compileOne o.base⟩ n input =
      parse ⟨st.decoders, Compiler.compileOne o.base⟩ n d2 .empty input := by
    simp only [Decoder.run, h3]; rfl
  rw [e1, e2]
  exact parse_eq hp n d d2 .empty input hdd trivial

end TCompiler
end Doodle
