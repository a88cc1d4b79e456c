import Verif.Lemmas.Ends
import Verif.Lemmas.Sound
import Verif.Lemmas.CompileMono
import Verif.Lemmas.Consume
import Verif.Props.Decode

/-! Termination of compiled decoders. -/

namespace Doodle

open Grammar Compiler

mutual
/-- The format refers only to items before `k`, and the bodies of its loops consume: those of `Repeat` and
`Repeat1`, which the compiler has checked not to be nullable, have right static bounds; those of the other
loops have right static bounds and are not nullable (which the compiler does not check). -/
def Format.LoopsMove (m : Module) (k : Nat) : Format → Prop
  | .itemVar level _ _ => level < k
  | .repeat_ f => f.BoundsSafe m ∧ f.LoopsMove m k
  | .repeat1 f => f.BoundsSafe m ∧ f.LoopsMove m k
  | .repeatUntilLast _ f => f.isNullable m = .ok false ∧ f.BoundsSafe m ∧ f.LoopsMove m k
  | .repeatUntilSeq _ f => f.isNullable m = .ok false ∧ f.BoundsSafe m ∧ f.LoopsMove m k
  | .accumUntil _ _ _ _ f => f.isNullable m = .ok false ∧ f.BoundsSafe m ∧ f.LoopsMove m k
  | .variant _ f => f.LoopsMove m k
  | .union fs => Format.AllLoopsMove m k fs
  | .unionNondet fs => Format.AllLoopsMove m k fs
  | .tuple fs => Format.AllLoopsMove m k fs
  | .sequence fs => Format.AllLoopsMove m k fs
  | .repeatCount _ f => f.LoopsMove m k
  | .repeatBetween _ _ f => f.LoopsMove m k
  | .forEach _ _ f => f.LoopsMove m k
  | .maybe _ f => f.LoopsMove m k
  | .peek f => f.LoopsMove m k
  | .peekNot f => f.LoopsMove m k
  | .slice _ f => f.LoopsMove m k
  | .bits f => f.LoopsMove m k
  | .withRelativeOffset _ _ f => f.LoopsMove m k
  | .map f _ => f.LoopsMove m k
  | .where_ f _ _ => f.LoopsMove m k
  | .let_ _ _ f => f.LoopsMove m k
  | .match_ _ bs => Format.BranchesLoopsMove m k bs
  | .dynamic _ _ _ f => f.LoopsMove m k
  | .decodeBytes _ f => f.LoopsMove m k
  | .parseFromView _ f => f.LoopsMove m k
  | .letFormat f _ g => f.LoopsMove m k ∧ g.LoopsMove m k
  | .monadSeq f g => f.LoopsMove m k ∧ g.LoopsMove m k
  | .hint f => f.LoopsMove m k
  | .liftedSome f => f.LoopsMove m k
  | .letView _ f => f.LoopsMove m k
  | .enforce f => f.LoopsMove m k
  | .permit f _ => f.LoopsMove m k
  | _ => True

/-- all of them -/
def Format.AllLoopsMove (m : Module) (k : Nat) : List Format → Prop
  | [] => True
  | f :: fs => f.LoopsMove m k ∧ Format.AllLoopsMove m k fs

/-- all of them -/
def Format.BranchesLoopsMove (m : Module) (k : Nat) : List (Pattern × Format) → Prop
  | [] => True
  | (_, f) :: fs => f.LoopsMove m k ∧ Format.BranchesLoopsMove m k fs
end

/-- Items refer only to items defined before them (as `define_format` has it: an item gets its number when
its format is complete), and their loops consume. -/
def Module.LoopsMove (m : Module) : Prop :=
  ∀ (i : Nat) (it : Item), m.items[i]? = some it → it.format.LoopsMove m i

namespace Terminate

/-- what is known of the scope while a compiled program runs -/
structure Scopes (R : CRel) (env : Env) (s : Scope Format) (s' : Scope Decoder) : Prop where
  rel : ScopeRel (fun f d => ∃ next, Compiles R f next d) s s'
  huff : ScopeHuffman s
  views : ∀ x c, s'.getView x = some c → c.Inside
  decs : ∀ x d, s'.getDecoder x = some d → ∀ s c, c.Inside → Ends fun n => Decoder.parse env n d s c

namespace Scopes
variable {R : CRel} {env : Env} {s : Scope Format} {s' : Scope Decoder}

theorem empty : Scopes R env .empty .empty :=
  ⟨.empty, (fun _ _ h => nomatch h), (fun _ _ h => nomatch h), (fun _ _ h => nomatch h)⟩

theorem single (h : Scopes R env s s') (x : String) (v : Value) : Scopes R env (.single x v s) (.single x v s') :=
  ⟨.single h.rel, fun y g hg => h.huff y g hg, fun y c hc => h.views y c hc, fun y d hd => h.decs y d hd⟩

theorem view (h : Scopes R env s s') (x : String) {c : ReadCtxt} (hc : c.Inside) :
    Scopes R env (.view x c s) (.view x c s') := by
  refine ⟨.view h.rel, fun y g hg => h.huff y g hg, fun y c' hc' => ?_, fun y d hd => h.decs y d hd⟩
  simp only [Scope.getView] at hc'
  split at hc'
  · cases hc'; exact hc
  · exact h.views y c' hc'

theorem find_mem {es : List (String × ViewOrValue)} {x : String} {c : ReadCtxt}
    (h : Scope.findView x es = some c) : ∃ y, (y, ViewOrValue.view c) ∈ es := by
  induction es with
  | nil => cases h
  | cons p es ih =>
    obtain ⟨y, e⟩ := p
    cases e with
    | value v =>
      obtain ⟨z, hz⟩ := ih (by simpa [Scope.findView] using h)
      exact ⟨z, List.mem_cons_of_mem _ hz⟩
    | view c' =>
      simp only [Scope.findView] at h
      split at h
      · cases h; exact ⟨y, List.mem_cons_self⟩
      · obtain ⟨z, hz⟩ := ih h
        exact ⟨z, List.mem_cons_of_mem _ hz⟩

theorem multi (h : Scopes R env s s') (es : List (String × ViewOrValue))
    (hes : ∀ y c, (y, ViewOrValue.view c) ∈ es → c.Inside) : Scopes R env (.multi es s) (.multi es s') := by
  refine ⟨.multi h.rel, fun y g hg => h.huff y g hg, fun y c' hc' => ?_, fun y d hd => h.decs y d hd⟩
  simp only [Scope.getView] at hc'
  split at hc'
  · next c hc =>
    cases hc'
    obtain ⟨y, hy⟩ := find_mem hc
    exact hes y _ (List.mem_reverse.1 hy)
  · exact h.views y c' hc'

theorem bindings (h : Scopes R env s s') (bs : List (String × Value)) :
    Scopes R env (s.withBindings bs) (s'.withBindings bs) :=
  h.multi _ fun y c hc => by simp at hc

theorem decoder (h : Scopes R env s s') (x : String) {f : Format} {d : Decoder} {ls vs}
    (hf : Decoder.huffmanFormat ls vs = .ok f) (hc : ∃ next, Compiles R f next d)
    (hd : ∀ s c, c.Inside → Ends fun n => Decoder.parse env n d s c) :
    Scopes R env (.decoder x f s) (.decoder x d s') := by
  refine ⟨.decoder hc h.rel, Consume.ScopeHuffman.decoder h.huff x hf, fun y c' hc' => h.views y c' hc', ?_⟩
  intro y d' hd'
  simp only [Scope.getDecoder] at hd'
  split at hd'
  · cases hd'; exact hd
  · exact h.decs y d' hd'

end Scopes

theorem evalView_inside {s : Scope Decoder} (h : ∀ x c, s.getView x = some c → c.Inside) (v : ViewExpr) :
    ∀ c, Decoder.evalView s v = .ok c → c.Inside := by
  induction v with
  | var x =>
    intro c hc
    exact h x c (unwrap_eq_ok.1 (Outcome.ofPanicky_eq_ok.1 hc))
  | offset base e ih =>
    intro c hc
    simp only [Decoder.evalView] at hc
    obtain ⟨_, _, hc⟩ := Outcome.bind_eq_ok.1 hc
    obtain ⟨n, _, hc⟩ := Outcome.bind_eq_ok.1 hc
    obtain ⟨c0, h0, hc⟩ := Outcome.bind_eq_ok.1 hc
    obtain ⟨r, hr, hc⟩ := Outcome.bind_eq_ok.1 hc
    have hr := Outcome.ofPanicky_eq_ok.1 hr
    split at hc
    · cases hc
      obtain ⟨h1, _, rfl⟩ := Sound.splitAt_some hr
      exact h1
    · cases hc

theorem evalArgs_value {s : Scope Decoder} {es : List (String × Expr)} {bs : List (String × ViewOrValue)}
    (h : Decoder.evalArgs s es = .ok bs) : ∀ y c, (y, ViewOrValue.view c) ∉ bs := by
  induction es generalizing bs with
  | nil => cases h; intro y c h; cases h
  | cons p es ih =>
    obtain ⟨x, e⟩ := p
    simp only [Decoder.evalArgs] at h
    obtain ⟨v, _, h⟩ := Outcome.bind_eq_ok.1 h
    obtain ⟨r, hr, h⟩ := Outcome.bind_eq_ok.1 h
    cases h
    intro y c hm
    rcases List.mem_cons.1 hm with hm | hm
    · cases hm
    · exact ih hr y c hm

theorem evalViewArgs_inside {s : Scope Decoder} (hs : ∀ x c, s.getView x = some c → c.Inside)
    {es : List (String × ViewExpr)} {bs : List (String × ViewOrValue)}
    (h : Decoder.evalViewArgs s es = .ok bs) : ∀ y c, (y, ViewOrValue.view c) ∈ bs → c.Inside := by
  induction es generalizing bs with
  | nil => cases h; intro y c h; cases h
  | cons p es ih =>
    obtain ⟨x, e⟩ := p
    simp only [Decoder.evalViewArgs] at h
    obtain ⟨v, hv, h⟩ := Outcome.bind_eq_ok.1 h
    obtain ⟨r, hr, h⟩ := Outcome.bind_eq_ok.1 h
    cases h
    intro y c hm
    rcases List.mem_cons.1 hm with hm | hm
    · cases hm; exact evalView_inside hs e _ hv
    · exact ih hr y c hm

/-- what is known of the program -/
structure Prog (m : Module) (o : BuildOpts) (M : List ((Nat × Next) × Nat)) (env : Env) : Prop where
  linked : Sound.Linked (.both m o M) m env
  calls : ∀ level next k it, m.items[level]? = some it → ((level, next), k) ∈ M →
    ∃ d, env.program[k]? = some d ∧ Compiles (.of m o M) it.format next d
  dyn : ∀ ls vs g, Decoder.huffmanFormat ls vs = .ok g → env.compileOne g ≠ .fuel
  dynEnds : ∀ ls vs g d, Decoder.huffmanFormat ls vs = .ok g → env.compileOne g = .ok (some d) →
    ∀ s c, c.Inside → Ends fun n => Decoder.parse env n d s c

section
variable {m : Module} {o : BuildOpts} {M : List ((Nat × Next) × Nat)} {env : Env}

theorem inside {n d s c w} (hi : ReadCtxt.Inside c) (h : Decoder.parse env n d s c = .ok w) : w.value.2.Inside := by
  have := C07_forward env n d s c w hi h
  unfold ReadCtxt.Inside
  rw [this.1]
  exact this.2.2

theorem moves (P : Prog m o M env) {f next d s s'} (hc : Compiles (.of m o M) f next d)
    (hs : Scopes (.both m o M) env s s') (hb : f.BoundsSafe m) (hn : f.isNullable m = .ok false)
    (he : ∀ c, c.Inside → Ends fun n => Decoder.parse env n d s' c) :
    Decoder.StepMoves fun n c => Decoder.parse env n d s' c where
  ends := he
  inside n c w hi h := inside hi h
  input n c w hi h := (C07_forward env n d s' c w hi h).1
  moves n c w hi h := by
    have hp := Sound.parse_sound P.linked n f next d s s' c w (hc.mono (CRel.of_le_both m o M)) hs.rel h
    obtain ⟨b, hb', hn⟩ := Panicky.bind_eq_ok.1 hn
    obtain ⟨k, hk, hin⟩ := Consume.consumes hp _ b hb' hb hs.huff hi
    have h0 : ¬ b.min = 0 := by
      have := Panicky.ok.inj hn
      simpa using this
    have := hin.1
    omega

variable (P : Prog m o M env) (k : Nat)
  (ih : ∀ j, j < k → ∀ {f next d s s' c}, Compiles (.of m o M) f next d → f.LoopsMove m j →
    Scopes (.both m o M) env s s' → c.Inside → Ends fun n => Decoder.parse env n d s' c)
  (hm : m.LoopsMove)
set_option linter.unusedSectionVars false
include P ih hm

local macro "start " h:ident : tactic =>
  `(tactic| ((try simp only [Format.LoopsMove] at $h:ident); refine Ends.of_succ ?_; simp only [Decoder.parse]))

mutual
theorem ends : ∀ {f next d s s' c}, Compiles (.of m o M) f next d → f.LoopsMove m k →
    Scopes (.both m o M) env s s' → c.Inside → Ends fun n => Decoder.parse env n d s' c
  | _, _, _, _, _, _, .itemVar h1 h2 h3, hk, hs, hi => by
    start hk
    refine .then_ (Decoder.evalArgs_ne _ _) fun es hes => .then_ (Decoder.evalViewArgs_ne _ _) fun vs hvs =>
      .panicky fun d hd => ?_
    obtain ⟨d', hd', hc⟩ := P.calls _ _ _ _ h1 h3
    rw [hd'] at hd
    cases hd
    refine ih _ hk hc (hm _ _ h1) (Scopes.empty.multi _ fun y c hc => ?_) hi
    rcases List.mem_append.1 hc with hc | hc
    · exact absurd hc (evalArgs_value hes y c)
    · exact evalViewArgs_inside hs.views hvs y c hc
  | _, _, _, _, _, _, .phantom, hk, hs, hi => by start hk; exact .ok _
  | _, _, _, _, _, _, .fail, hk, hs, hi => by start hk; exact .const (by intro h; cases h)
  | _, _, _, _, _, _, .decodeBytes h, hk, hs, hi => by
    start hk
    refine .panicky fun vs hvs => .panicky fun bs hbs => .bind (ends h hk hs (Nat.zero_le _)) fun w n hw => ?_
    simp only [WithErr.joinO]
    refine .const ?_
    split <;> intro h <;> cases h
  | _, _, _, _, _, _, .parseFromView h, hk, hs, hi => by
    start hk
    exact .then_ (Decoder.evalView_ne _ _) fun c hc => .bind (ends h hk hs (evalView_inside hs.views _ _ hc))
      fun w n hw => .ok _
  | _, _, _, _, _, _, .pos, hk, hs, hi => by start hk; exact .ok _
  | _, _, _, _, _, _, .letView h, hk, hs, hi => by
    start hk
    exact ends h hk (hs.view _ hi) hi
  | _, _, _, _, _, _, .endOfInput, hk, hs, hi => by
    start hk
    refine .const ?_
    split <;> intro h <;> cases h
  | _, _, _, _, _, _, .align, hk, hs, hi => by
    start hk
    split
    · exact .const (by intro h; cases h)
    · refine .panicky fun r hr => .const ?_
      split <;> intro h <;> cases h
  | _, _, _, _, _, _, .byte, hk, hs, hi => by
    start hk
    refine .const ?_
    split
    · intro h; cases h
    · split <;> intro h <;> cases h
  | _, _, _, _, _, _, .skipRemainder, hk, hs, hi => by start hk; exact .ok _
  | _, _, _, _, _, _, .variant h, hk, hs, hi => by
    start hk; exact .bind (ends h hk hs hi) fun w n hw => .ok _
  | _, _, _, _, _, _, .union h t, hk, hs, hi => by
    start hk
    split
    · exact .const (by intro h; cases h)
    · refine .panicky fun d hd => .bind (endsAll h hk hs hi d ?_) fun w n hw => .ok _
      exact List.mem_of_getElem? (unwrap_eq_ok.1 hd)
  | _, _, _, _, _, _, .unionNondet h, hk, hs, hi => by
    start hk
    exact Decoder.parallelLoop_ends _ _ (fun d hd => endsAll h hk hs hi d hd) 0
  | _, _, _, _, _, _, .tuple h, hk, hs, hi => by
    start hk
    refine .bind ?_ fun w n hw => .ok _
    exact Decoder.foldItems_ends _ (fun d hd => ⟨fun c hc => endsFields h hk hs hc d hd,
      fun n c w hi h => inside hi h⟩) _ hi
  | _, _, _, _, _, _, .sequence h, hk, hs, hi => by
    start hk
    refine .bind ?_ fun w n hw => .ok _
    exact Decoder.foldItems_ends _ (fun d hd => ⟨fun c hc => endsFields h hk hs hc d hd,
      fun n c w hi h => inside hi h⟩) _ hi
  | _, _, _, _, _, _, .repeat_ n h t, hk, hs, hi => by
    start hk
    refine .bind ?_ fun w n hw => .ok _
    exact (Decoder.whileLoop_ends (moves P h hs hk.1 n fun c hc => ends h hk.2 hs hc) _ _ _ hi rfl).diag
  | _, _, _, _, _, _, .repeat1 n h t, hk, hs, hi => by
    start hk
    refine .bind ?_ fun w n hw => .ok _
    exact (Decoder.untilLoop_ends (moves P h hs hk.1 n fun c hc => ends h hk.2 hs hc) _ _ _ hi rfl).diag
  | _, _, _, _, _, _, .repeatCount h, hk, hs, hi => by
    start hk
    refine .panicky fun j hj => .bind ?_ fun w n hw => .ok _
    exact Decoder.foldItems_ends _ (fun _ _ => ⟨fun c hc => ends h hk hs hc,
      fun n c w hi h => inside hi h⟩) _ hi
  | _, _, _, _, _, _, .repeatBetween _ _ h _, hk, hs, hi => by
    start hk
    refine .panicky fun lo hlo => .panicky fun hi' hhi => .bind ?_ fun w n hw => .ok _
    exact (Decoder.betweenLoop_ends ⟨fun c hc => ends h hk hs hc, fun n c w hi h => inside hi h⟩ _ _ _ _ _ _ hi
      (Nat.zero_le _) rfl).diag
  | _, _, _, _, _, _, .repeatUntilLast h, hk, hs, hi => by
    start hk
    refine .bind ?_ fun w n hw => .ok _
    exact (Decoder.untilDoneLoop_ends (moves P h hs hk.2.1 hk.1 fun c hc => ends h hk.2.2 hs hc) _ _ _ hi rfl).diag
  | _, _, _, _, _, _, .repeatUntilSeq h, hk, hs, hi => by
    start hk
    refine .bind ?_ fun w n hw => .ok _
    exact (Decoder.untilDoneLoop_ends (moves P h hs hk.2.1 hk.1 fun c hc => ends h hk.2.2 hs hc) _ _ _ hi rfl).diag
  | _, _, _, _, _, _, .forEach h, hk, hs, hi => by
    start hk
    refine .panicky fun vs hvs => .bind ?_ fun w n hw => .ok _
    exact Decoder.foldItems_ends _ (fun v _ => ⟨fun c hc => ends h hk (hs.single _ v) hc,
      fun n c w hi h => inside hi h⟩) _ hi
  | _, _, _, _, _, _, .accumUntil h, hk, hs, hi => by
    start hk
    refine .panicky fun a ha => .bind ?_ fun w n hw => .ok _
    exact (Decoder.accumLoop_ends (moves P h hs hk.2.1 hk.1 fun c hc => ends h hk.2.2 hs hc) _ _ _ _ _ hi rfl).diag
  | _, _, _, _, _, _, .maybe h, hk, hs, hi => by
    start hk
    refine .panicky fun b hb => ?_
    split
    · exact .bind (ends h hk hs hi) fun w n hw => .ok _
    · exact .ok _
  | _, _, _, _, _, _, .peek h, hk, hs, hi => by
    start hk; exact .bind (ends h hk hs hi) fun w n hw => .ok _
  | _, _, _, _, _, _, .peekNot _ h, hk, hs, hi => by
    start hk
    obtain ⟨N, r, hr, h⟩ := ends h hk hs hi
    cases r with
    | fuel => exact absurd rfl hr
    | ok w => exact ⟨N, .err (.fail _), (fun h => nomatch h), fun n hn => by simp only [h n hn]; rfl⟩
    | err e => exact ⟨N, .ok (.new (.tuple [], _)), (fun h => nomatch h), fun n hn => by simp only [h n hn]; rfl⟩
    | panic => exact ⟨N, .panic, (fun h => nomatch h), fun n hn => by simp only [h n hn]⟩
  | _, _, _, _, _, _, .slice h, hk, hs, hi => by
    start hk
    refine .panicky fun j hj => .panicky fun r hr => ?_
    split
    · exact .const (by intro h; cases h)
    · obtain ⟨h1, rfl, rfl⟩ := Sound.splitAt_some hr
      refine .bind (ends h hk hs ?_) fun w n hw => .ok _
      unfold ReadCtxt.Inside
      simp only [List.length_take]
      omega
  | _, _, _, _, _, _, .bits h, hk, hs, hi => by
    start hk
    refine .panicky fun bs hbs => .bind (ends h hk hs (Nat.zero_le _)) fun w n hw => ?_
    simp only [WithErr.joinO]
    exact .then_ (Decoder.finishBits_ne _ _) fun _ _ => .ok _
  | _, _, _, _, _, _, .withRelativeOffset h, hk, hs, hi => by
    start hk
    refine .panicky fun a ha => .panicky fun b hb => .panicky fun t ht => ?_
    split
    · exact .const (by intro h; cases h)
    · next c' hc' =>
      refine .bind (ends h hk hs ?_) fun w n hw => .ok _
      unfold ReadCtxt.seekTo at hc'
      split at hc'
      · cases hc'; assumption
      · cases hc'
  | _, _, _, _, _, _, .map h, hk, hs, hi => by
    start hk; exact .bind (ends h hk hs hi) fun w n hw => .panicky fun v hv => .ok _
  | _, _, _, _, _, _, .where_ h, hk, hs, hi => by
    start hk
    refine .bind (ends h hk hs hi) fun w n hw => ?_
    simp only [WithErr.joinO]
    refine .bind (.panicky fun b hb => .const ?_) fun w n hw => .ok _
    split
    · intro h; cases h
    · split <;> intro h <;> cases h
  | _, _, _, _, _, _, .enforce h, hk, hs, hi => by
    start hk
    refine .bind (ends h hk hs hi) fun w n hw => .const ?_
    split <;> intro h <;> cases h
  | _, _, _, _, _, _, .permit (e := e) h, hk, hs, hi => by
    start hk
    obtain ⟨N, r, hr, h⟩ := ends h hk hs hi
    cases r with
    | fuel => exact absurd rfl hr
    | ok w =>
      exact ⟨N, .ok (w.map fun r => (.permitOk r.1, r.2)), (fun h => nomatch h), fun n hn => by simp only [h n hn]⟩
    | err e' =>
      refine ⟨N, _, ?_, fun n hn => by simp only [h n hn]; rfl⟩
      cases e.evalValue _ <;> intro h <;> cases h
    | panic => exact ⟨N, .panic, (fun h => nomatch h), fun n hn => by simp only [h n hn]⟩
  | _, _, _, _, _, _, .compute, hk, hs, hi => by start hk; exact .panicky fun v hv => .ok _
  | _, _, _, _, _, _, .let_ h, hk, hs, hi => by
    start hk; exact .panicky fun v hv => ends h hk (hs.single _ v) hi
  | _, _, _, _, _, _, .match_ h, hk, hs, hi => by
    start hk
    refine .panicky fun v hv => ?_
    exact Decoder.matchLoop_ends v _ (fun q d bs hd => endsBranches h hk (hs.bindings bs) hi q d hd) 0
  | _, _, _, _, _, _, .dynamic h, hk, hs, hi => by
    start hk
    refine .panicky fun lv hlv => .panicky fun g hg => ?_
    split
    · next d hd => exact ends h hk (hs.decoder _ hg (P.linked.dyn _ _ hd) (P.dynEnds _ _ _ _ hg hd)) hi
    · exact .const (by intro h; cases h)
    · exact .const (by intro h; cases h)
    · next hf => exact absurd hf (P.dyn _ _ _ hg)
  | _, _, _, _, _, _, .apply, hk, hs, hi => by
    start hk
    exact .panicky fun d hd => hs.decs _ d (unwrap_eq_ok.1 hd) _ _ hi
  | _, _, _, _, _, _, .letFormat h1 h2, hk, hs, hi => by
    start hk
    refine .bind (ends h1 hk.1 hs hi) fun w n hw => ?_
    simp only [WithErr.joinO]
    exact .bind (ends h2 hk.2 (hs.single _ _) (inside hi hw)) fun w n hw => .ok _
  | _, _, _, _, _, _, .monadSeq h1 h2, hk, hs, hi => by
    start hk
    refine .bind (ends h1 hk.1 hs hi) fun w n hw => ?_
    simp only [WithErr.joinO]
    exact .bind (ends h2 hk.2 hs (inside hi hw)) fun w n hw => .ok _
  | _, _, _, _, _, _, .hint h, hk, hs, hi => by
    simp only [Format.LoopsMove] at hk; exact ends h hk hs hi
  | _, _, _, _, _, _, .liftedNone, hk, hs, hi => by start hk; exact .ok _
  | _, _, _, _, _, _, .liftedSome h, hk, hs, hi => by
    start hk; exact .bind (ends h hk hs hi) fun w n hw => .ok _
  | _, _, _, _, _, _, .captureBytes, hk, hs, hi => by
    start hk
    exact .panicky fun k hk => .then_ (Decoder.evalView_ne _ _) fun c hc =>
      .then_ (Decoder.captureLoop_ne _ _ _) fun vs hvs => .ok _
  | _, _, _, _, _, _, .readArray, hk, hs, hi => by
    start hk
    exact .panicky fun k hk => .then_ (Decoder.evalView_ne _ _) fun c hc =>
      .then_ (Decoder.readArrayLoop_ne _ _ _ _) fun vs hvs => .ok _
  | _, _, _, _, _, _, .reifyView, hk, hs, hi => by
    start hk
    exact .then_ (Decoder.evalView_ne _ _) fun c hc => .ok _

theorem endsAll : ∀ {fs next ds s s' c}, CompilesAll (.of m o M) fs next ds → Format.AllLoopsMove m k fs →
    Scopes (.both m o M) env s s' → c.Inside → ∀ d ∈ ds, Ends fun n => Decoder.parse env n d s' c
  | _, _, _, _, _, _, .anil, hk, hs, hi, d, hd => by cases hd
  | _, _, _, _, _, _, .acons h1 h2, hk, hs, hi, d, hd => by
    simp only [Format.AllLoopsMove] at hk
    rcases List.mem_cons.1 hd with rfl | hd
    · exact ends h1 hk.1 hs hi
    · exact endsAll h2 hk.2 hs hi d hd

theorem endsFields : ∀ {fs next ds s s' c}, CompilesFields (.of m o M) fs next ds → Format.AllLoopsMove m k fs →
    Scopes (.both m o M) env s s' → c.Inside → ∀ d ∈ ds, Ends fun n => Decoder.parse env n d s' c
  | _, _, _, _, _, _, .fnil, hk, hs, hi, d, hd => by cases hd
  | _, _, _, _, _, _, .fcons h1 h2, hk, hs, hi, d, hd => by
    simp only [Format.AllLoopsMove] at hk
    rcases List.mem_cons.1 hd with rfl | hd
    · exact ends h1 hk.1 hs hi
    · exact endsFields h2 hk.2 hs hi d hd

theorem endsBranches : ∀ {fs next ds s s' c}, CompilesBranches (.of m o M) fs next ds →
    Format.BranchesLoopsMove m k fs → Scopes (.both m o M) env s s' → c.Inside →
    ∀ p d, (p, d) ∈ ds → Ends fun n => Decoder.parse env n d s' c
  | _, _, _, _, _, _, .bnil, hk, hs, hi, p, d, hd => by cases hd
  | _, _, _, _, _, _, .bcons h1 h2, hk, hs, hi, p, d, hd => by
    simp only [Format.BranchesLoopsMove] at hk
    rcases List.mem_cons.1 hd with hd | hd
    · cases hd; exact ends h1 hk.1 hs hi
    · exact endsBranches h2 hk.2 hs hi p d hd
end
end

theorem ends_all {m : Module} {o : BuildOpts} {M : List ((Nat × Next) × Nat)} {env : Env}
    (P : Prog m o M env) (hm : m.LoopsMove) (k : Nat) :
    ∀ {f next d s s' c}, Compiles (.of m o M) f next d → f.LoopsMove m k →
      Scopes (.both m o M) env s s' → c.Inside → Ends fun n => Decoder.parse env n d s' c := by
  induction k using Nat.strongRecOn with
  | _ k ih => exact ends P k ih hm

end Terminate
end Doodle
