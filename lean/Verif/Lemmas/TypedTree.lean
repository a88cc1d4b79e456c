import Verif.Lemmas.GLevel
import Verif.Spec.TypedFormat

/-!
The prefix trees built for untyped continuations and those built for continuations with typed formats choose
alike.
-/

namespace Doodle
namespace GTree

section
variable {N N' : Type} {R : N → N' → Prop} {K : Conts N} {K' : Conts N'}

/-- related continuations make related continuations -/
structure Closed (R : N → N' → Prop) (K : Conts N) (K' : Conts N') : Prop where
  empty : R K.empty K'.empty
  union : ∀ {a a' b b'}, R a a' → R b b' → R (K.union a b) (K'.union a' b')
  swap : ∀ {a a' b b'}, R a a' → R b b' → R (K.union a b) (K'.union b' a')
  peek : ∀ {a a' b b'}, R a a' → R b b' → R (K.peek a b) (K'.peek a' b')
  peekNot : ∀ {a a' b b'}, R a a' → R b b' → R (K.peekNot a b) (K'.peekNot a' b')
  slice : ∀ {n a a' b b'}, R a a' → R b b' → R (K.slice n a b) (K'.slice n a' b')

theorem SRel.acceptAll : SRel R GStep.acceptAll GStep.acceptAll :=
  ⟨rfl, ⟨trivial, (fun p hp => nomatch hp)⟩, ⟨trivial, (fun p hp => nomatch hp)⟩, fun _ => trivial⟩

theorem SRel.reject : SRel R GStep.reject GStep.reject :=
  ⟨rfl, ⟨trivial, (fun p hp => nomatch hp)⟩, ⟨trivial, (fun p hp => nomatch hp)⟩, fun _ => trivial⟩

theorem branch_wf {bs : ByteSet} (h : bs.Inhabited) (x : N) : Wf (GStep.branch bs x) :=
  ⟨⟨fun _ _ => rfl, trivial⟩, fun p hp => by
    simp only [GStep.branch, List.mem_singleton] at hp; subst hp; exact h⟩

theorem SRel.branch {bs : ByteSet} (h : bs.Inhabited) {x : N} {y : N'} (hr : R x y) :
    SRel R (GStep.branch bs x) (GStep.branch bs y) :=
  ⟨rfl, branch_wf h x, branch_wf h y, fun b => by
    simp only [GTree.to, GStep.branch, atB]
    cases bs.contains b with
    | true => exact hr
    | false => trivial⟩

theorem ORel.union (hK : Closed R K K') {a b : Option N} {a' b' : Option N'} (h : ORel R a a') (h' : ORel R b b') :
    ORel R (orUnion K a b) (orUnion K' a' b') := by
  cases a <;> cases a' <;> first | exact h.elim | skip
  · cases b <;> cases b' <;> exact h'
  · cases b <;> cases b' <;> first | exact h'.elim | skip
    · exact h
    · exact hK.union h h'

theorem ORel.swap (hK : Closed R K K') {a b : Option N} {a' b' : Option N'} (h : ORel R a a') (h' : ORel R b b') :
    ORel R (orUnion K a b) (orUnion K' b' a') := by
  cases a <;> cases a' <;> first | exact h.elim | skip
  · cases b <;> cases b' <;> exact h'
  · cases b <;> cases b' <;> first | exact h'.elim | skip
    · exact h
    · exact hK.swap h h'

theorem SRel.union (hK : Closed R K K') {s s2 : GStep N} {t t2 : GStep N'} (h : SRel R s t) (h2 : SRel R s2 t2) :
    SRel R (s.union K s2) (t.union K' t2) := by
  have u := union_wf K h.wf h2.wf
  have v := union_wf K' h.wf' h2.wf'
  refine ⟨by rw [u.2.1, v.2.1, h.acc, h2.acc], u.1, v.1, fun b => ?_⟩
  rw [u.2.2 b, v.2.2 b]
  exact (h.to b).union hK (h2.to b)

theorem SRel.swap (hK : Closed R K K') {s s2 : GStep N} {t t2 : GStep N'} (h : SRel R s t) (h2 : SRel R s2 t2) :
    SRel R (s.union K s2) (t2.union K' t) := by
  have u := union_wf K h.wf h2.wf
  have v := union_wf K' h2.wf' h.wf'
  refine ⟨by rw [u.2.1, v.2.1, h.acc, h2.acc, Bool.or_comm], u.1, v.1, fun b => ?_⟩
  rw [u.2.2 b, v.2.2 b]
  exact (h.to b).swap hK (h2.to b)

theorem SRel.peek (hK : Closed R K K') {s s2 : GStep N} {t t2 : GStep N'} (h : SRel R s t) (h2 : SRel R s2 t2) :
    SRel R (s.peek K s2) (t.peek K' t2) := by
  have u := peek_wf K h.wf h2.wf
  have v := peek_wf K' h.wf' h2.wf'
  refine ⟨by rw [u.2.1, v.2.1, h.acc, h2.acc], u.1, v.1, fun b => ?_⟩
  rw [u.2.2 b, v.2.2 b, h.acc, h2.acc]
  have hb := h.to b
  have hb2 := h2.to b
  cases t2.accept with
  | true => exact hb
  | false =>
    cases t.accept with
    | true => exact hb2
    | false =>
      simp only [Bool.false_eq_true, if_false]
      cases hs : GTree.to s b <;> cases ht : GTree.to t b <;> rw [hs, ht] at hb <;> first | exact hb.elim | skip
      · trivial
      · cases hs2 : GTree.to s2 b <;> cases ht2 : GTree.to t2 b <;> rw [hs2, ht2] at hb2 <;> first | exact hb2.elim | skip
        · trivial
        · exact hK.peek hb hb2

theorem SRel.peekNot (hK : Closed R K K') {s s2 : GStep N} {t t2 : GStep N'} (h : SRel R s t) (h2 : SRel R s2 t2) :
    SRel R (s.peekNot K s2) (t.peekNot K' t2) := by
  have u := peekNot_wf K h.wf h2.wf
  have v := peekNot_wf K' h.wf' h2.wf'
  refine ⟨by rw [u.2.1, v.2.1, h.acc, h2.acc], u.1, v.1, fun b => ?_⟩
  rw [u.2.2 b, v.2.2 b, h2.acc]
  have hb := h.to b
  have hb2 := h2.to b
  cases t2.accept with
  | true => trivial
  | false =>
    simp only [Bool.false_eq_true, if_false]
    cases hs : GTree.to s b <;> cases ht : GTree.to t b <;> rw [hs, ht] at hb <;> first | exact hb.elim | skip
    · trivial
    · cases hs2 : GTree.to s2 b <;> cases ht2 : GTree.to t2 b <;> rw [hs2, ht2] at hb2 <;> first | exact hb2.elim | skip
      · exact hb
      · exact hK.peekNot hb hb2

theorem SRel.inSlice (hK : Closed R K K') {s : GStep N} {t : GStep N'} (h : SRel R s t) (n : Nat) {x : N} {y : N'}
    (hr : R x y) : SRel R (s.inSlice K n x) (t.inSlice K' n y) := by
  have u := inSlice_wf K h.wf n x
  have v := inSlice_wf K' h.wf' n y
  have hnone : (∀ b, GTree.to s b = none) ↔ ∀ b, GTree.to t b = none := by
    constructor
    · intro ha b
      have := h.to b
      rw [ha b] at this
      cases ht : GTree.to t b with
      | none => rfl
      | some z => rw [ht] at this; exact this.elim
    · intro ha b
      have := h.to b
      rw [ha b] at this
      cases ht : GTree.to s b with
      | none => rfl
      | some z => rw [ht] at this; exact this.elim
  refine ⟨by rw [u.2.1, v.2.1], u.1, v.1, fun b => ?_⟩
  by_cases ha : ∀ b, GTree.to s b = none
  · rw [u.2.2.1 ha b, v.2.2.1 (hnone.1 ha) b]
    exact hK.slice hK.empty hr
  · rw [u.2.2.2 ha b, v.2.2.2 (fun h => ha (hnone.2 h)) b]
    have hb := h.to b
    cases hs : GTree.to s b <;> cases ht : GTree.to t b <;> rw [hs, ht] at hb <;> first | exact hb.elim | skip
    · trivial
    · exact hK.slice hb hr

end

/-! ### the untyped steps -/

/-- the constructors of `Next` that operations on steps use -/
def nextConts : Conts Next := ⟨.empty, .union, .peek, .peekNot, .slice⟩

def toG (s : Step) : GStep Next := ⟨s.accept, s.branches⟩

theorem split_toG (next : Next) : ∀ (l : List (ByteSet × Next)) (bs : ByteSet),
    Step.splitBranches next bs l = GStep.splitBranches nextConts next bs l
  | [], _ => rfl
  | (bs0, x) :: l, bs => by
    simp only [Step.splitBranches, GStep.splitBranches, split_toG next l]
    rfl

theorem unionBranch_toG (s : Step) (bs : ByteSet) (x : Next) :
    toG (s.unionBranch bs x) = (toG s).unionBranch nextConts bs x := by
  simp only [toG, Step.unionBranch, GStep.unionBranch, split_toG]
  rfl

theorem unionBranches_toG : ∀ (l : List (ByteSet × Next)) (s : Step),
    toG (s.unionBranches l) = (toG s).unionBranches nextConts l
  | [], _ => rfl
  | (bs, x) :: l, s => by
    simp only [Step.unionBranches, GStep.unionBranches]
    rw [unionBranches_toG l, unionBranch_toG]

theorem union_toG (s t : Step) : toG (s.union t) = (toG s).union nextConts (toG t) := by
  simp only [Step.union, GStep.union, unionBranches_toG]
  rfl

theorem peekBranch_toG (bs : ByteSet) (x : Next) : ∀ l, Step.peekBranch bs x l = GStep.peekBranch nextConts bs x l
  | [] => rfl
  | (_, _) :: l => by simp only [Step.peekBranch, GStep.peekBranch, peekBranch_toG bs x l]; rfl

theorem peek_toG (s t : Step) : toG (s.peek t) = (toG s).peek nextConts (toG t) := by
  unfold Step.peek GStep.peek toG
  cases t.accept with
  | true => rfl
  | false =>
    cases s.accept with
    | true => rfl
    | false => simp only [Bool.false_eq_true, if_false, peekBranch_toG]

theorem peekNotBranch_toG (bs : ByteSet) (x : Next) : ∀ l d,
    Step.peekNotBranch bs x d l = GStep.peekNotBranch nextConts bs x d l
  | [], _ => rfl
  | (_, _) :: l, d => by simp only [Step.peekNotBranch, GStep.peekNotBranch, peekNotBranch_toG bs x l]; rfl

theorem peekNot_toG (s t : Step) : toG (s.peekNot t) = (toG s).peekNot nextConts (toG t) := by
  unfold Step.peekNot GStep.peekNot toG
  cases t.accept with
  | true => rfl
  | false => simp only [Bool.false_eq_true, if_false, peekNotBranch_toG]

theorem inSlice_toG (s : Step) (n : Nat) (x : Next) : toG (s.inSlice n x) = (toG s).inSlice nextConts n x := by
  unfold Step.inSlice GStep.inSlice toG
  cases s.branches with
  | nil => rfl
  | cons p l => rfl

/-! ### related continuations -/

section
variable {τ : Type}

/-- a format, untyped, and what stands for it in a continuation of the code generator -/
inductive FRel (m : Module) : Format → MTFormat τ → Prop
  | untyped {f} : f.Each Format.BytesHere → FRel m f (.untyped f)
  | typed {f} : f.Fit m → FRel m f.erase (.typed f)

inductive LRel (m : Module) : List Format → MTSlice τ → Prop
  | untyped {fs} : Format.EachOf Format.BytesHere fs → LRel m fs (.untyped fs)
  | typed {fs} : TFormat.FitList m fs → LRel m (TFormat.eraseList fs) (.typed fs)

/-- related continuations -/
inductive NRel (m : Module) : Next → TNext τ → Prop
  | empty : NRel m .empty .empty
  | union {a a' b b'} : NRel m a a' → NRel m b b' → NRel m (.union a b) (.union a' b')
  | unionSwap {a a' b b'} : NRel m a a' → NRel m b b' → NRel m (.union a b) (.union b' a')
  | cat {f f' x x'} : FRel m f f' → NRel m x x' → NRel m (.cat f x) (.cat f' x')
  | sequence {f f' x x'} : LRel m f f' → NRel m x x' → NRel m (.sequence f x) (.sequence f' x')
  | repeat_ {f f' x x'} : FRel m f f' → NRel m x x' → NRel m (.repeat_ f x) (.repeat_ f' x')
  | repeatCount {n f f' x x'} : FRel m f f' → NRel m x x' → NRel m (.repeatCount n f x) (.repeatCount n f' x')
  | repeatMax {n f f' x x'} : FRel m f f' → NRel m x x' → NRel m (.repeatMax n f x) (.repeatMax n f' x')
  | repeatBetween {n k f f' x x'} : FRel m f f' → NRel m x x' →
      NRel m (.repeatBetween n k f x) (.repeatBetween n k f' x')
  | slice {n a a' b b'} : NRel m a a' → NRel m b b' → NRel m (.slice n a b) (.slice n a' b')
  | peek {a a' b b'} : NRel m a a' → NRel m b b' → NRel m (.peek a b) (.peek a' b')
  | peekNot {a a' b b'} : NRel m a a' → NRel m b b' → NRel m (.peekNot a b) (.peekNot a' b')

theorem closed (m : Module) : Closed (NRel m : Next → TNext τ → Prop) nextConts (TNext.conts τ) :=
  ⟨.empty, .union, .unionSwap, .peek, .peekNot, .slice⟩

theorem eraseBranches_map (l : List (Pattern × TFormat τ)) :
    (TFormat.eraseBranches l).map (·.2) = TFormat.eraseList (l.map (·.2)) := by
  induction l with
  | nil => rfl
  | cons p l ih => obtain ⟨p, f⟩ := p; simp only [TFormat.eraseBranches, List.map_cons, TFormat.eraseList, ih]

theorem fitBranches_map (m : Module) (l : List (Pattern × TFormat τ)) (h : TFormat.FitBranches m l) :
    TFormat.FitList m (l.map (·.2)) := by
  induction l with
  | nil => trivial
  | cons p l ih => exact ⟨h.1, ih h.2⟩

theorem eachBranch_map {P : Format → Prop} (l : List (Pattern × Format)) (h : Format.EachBranchOf P l) :
    Format.EachOf P (l.map (·.2)) := by
  induction l with
  | nil => trivial
  | cons p l ih => exact ⟨h.1, ih h.2⟩

/-- what the steps for continuations satisfy at one recursion bound -/
def NextOk (τ : Type) (m : Module) (n : Nat) : Prop := ∀ (x : Next) (y : TNext τ) s t, NRel m x y →
  Next.step m n x = .ok s → TNext.step m n y = .ok t → SRel (NRel m) (toG s) t

def UntypedOk (τ : Type) (m : Module) (n : Nat) : Prop := ∀ (f : Format) (x : Next) (y : TNext τ) s t,
  f.Each Format.BytesHere → NRel m x y →
  Format.step m n f x = .ok s → Format.stepT m n f y = .ok t → SRel (NRel m) (toG s) t

def TypedOk (τ : Type) (m : Module) (n : Nat) : Prop := ∀ (f : TFormat τ) (x : Next) (y : TNext τ) s t,
  f.Fit m → NRel m x y →
  Format.step m n f.erase x = .ok s → TFormat.step m n f y = .ok t → SRel (NRel m) (toG s) t

theorem fold_ok {m : Module} {n : Nat} (hu : UntypedOk τ m n) (ht : TypedOk τ m n) {f : Format} {g : MTFormat τ}
    {x : Next} {y : TNext τ} {s t} (hf : FRel m f g) (hn : NRel m x y) (h : Format.step m n f x = .ok s)
    (h' : g.fold (fun f' => Format.stepT m n f' y) (fun f' => TFormat.step m n f' y) = .ok t) :
    SRel (NRel m) (toG s) t := by
  cases hf with
  | untyped hb => exact hu _ _ _ _ _ hb hn h h'
  | typed hb => exact ht _ _ _ _ _ hb hn h h'

theorem next_step {m : Module} {n : Nat} (hn : NextOk τ m n) (hu : UntypedOk τ m n) (ht : TypedOk τ m n) :
    NextOk τ m (n + 1) := by
  intro x y s t hr h h'
  have hK := closed (τ := τ) m
  cases hr with
  | empty =>
    simp only [Next.step, TNext.step, Outcome.ok.injEq] at h h'
    subst h; subst h'; exact SRel.acceptAll
  | union ha hb =>
    simp only [Next.step, TNext.step] at h h'
    obtain ⟨s1, h1, h⟩ := Outcome.bind_eq_ok.1 h
    obtain ⟨s2, h2, h⟩ := Outcome.bind_eq_ok.1 h
    obtain ⟨t1, h1', h'⟩ := Outcome.bind_eq_ok.1 h'
    obtain ⟨t2, h2', h'⟩ := Outcome.bind_eq_ok.1 h'
    cases h; cases h'
    rw [union_toG]
    exact (hn _ _ _ _ ha h1 h1').union hK (hn _ _ _ _ hb h2 h2')
  | unionSwap ha hb =>
    simp only [Next.step, TNext.step] at h h'
    obtain ⟨s1, h1, h⟩ := Outcome.bind_eq_ok.1 h
    obtain ⟨s2, h2, h⟩ := Outcome.bind_eq_ok.1 h
    obtain ⟨t1, h1', h'⟩ := Outcome.bind_eq_ok.1 h'
    obtain ⟨t2, h2', h'⟩ := Outcome.bind_eq_ok.1 h'
    cases h; cases h'
    rw [union_toG]
    exact (hn _ _ _ _ ha h1 h2').swap hK (hn _ _ _ _ hb h2 h1')
  | cat hf hx =>
    simp only [Next.step, TNext.step] at h h'
    exact fold_ok hu ht hf hx h h'
  | @sequence fs f' x x' hf hx =>
    cases hf with
    | untyped hb =>
      cases fs with
      | nil =>
        simp only [Next.step, TNext.step] at h h'
        exact hn _ _ _ _ hx h h'
      | cons f fs =>
        simp only [Next.step, TNext.step] at h h'
        exact hu _ _ _ _ _ hb.1 (.sequence (.untyped hb.2) hx) h h'
    | @typed fs hb =>
      cases fs with
      | nil =>
        simp only [TFormat.eraseList, Next.step, TNext.step] at h h'
        exact hn _ _ _ _ hx h h'
      | cons f fs =>
        simp only [TFormat.eraseList, Next.step, TNext.step] at h h'
        exact ht _ _ _ _ _ hb.1 (.sequence (.typed hb.2) hx) h h'
  | repeat_ hf hx =>
    simp only [Next.step, TNext.step] at h h'
    obtain ⟨s1, h1, h⟩ := Outcome.bind_eq_ok.1 h
    obtain ⟨s2, h2, h⟩ := Outcome.bind_eq_ok.1 h
    obtain ⟨t1, h1', h'⟩ := Outcome.bind_eq_ok.1 h'
    obtain ⟨t2, h2', h'⟩ := Outcome.bind_eq_ok.1 h'
    cases h; cases h'
    rw [union_toG]
    exact (hn _ _ _ _ hx h1 h1').union hK (fold_ok hu ht hf (.repeat_ hf hx) h2 h2')
  | @repeatCount k f f' x x' hf hx =>
    simp only [Next.step, TNext.step] at h h'
    by_cases hk : 0 < k
    · simp only [hk, if_true] at h h'
      exact fold_ok hu ht hf (.repeatCount hf hx) h h'
    · simp only [hk, if_false] at h h'
      exact hn _ _ _ _ hx h h'
  | @repeatMax k f f' x x' hf hx =>
    simp only [Next.step, TNext.step] at h h'
    by_cases hk : k = 0
    · simp only [hk, if_true] at h h'
      exact hn _ _ _ _ hx h h'
    · simp only [hk, if_false] at h h'
      obtain ⟨s1, h1, h⟩ := Outcome.bind_eq_ok.1 h
      obtain ⟨s2, h2, h⟩ := Outcome.bind_eq_ok.1 h
      obtain ⟨t1, h1', h'⟩ := Outcome.bind_eq_ok.1 h'
      obtain ⟨t2, h2', h'⟩ := Outcome.bind_eq_ok.1 h'
      cases h; cases h'
      rw [union_toG]
      exact (hn _ _ _ _ hx h1 h1').union hK (fold_ok hu ht hf (.repeatMax hf hx) h2 h2')
  | @repeatBetween lo hi f f' x x' hf hx =>
    simp only [Next.step, TNext.step] at h h'
    by_cases h1 : lo = hi
    · simp only [h1, if_true] at h; cases h
    · simp only [h1, if_false] at h h'
      by_cases h2 : 0 < lo
      · simp only [h2, if_true] at h h'
        by_cases h3 : hi = 0
        · simp only [h3, if_true] at h; cases h
        · simp only [h3, if_false] at h h'
          exact fold_ok hu ht hf (.repeatBetween hf hx) h h'
      · simp only [h2, if_false] at h h'
        exact hn _ _ _ _ (.repeatMax hf hx) h h'
  | @slice k a a' b b' ha hb =>
    simp only [Next.step, TNext.step] at h h'
    by_cases hk : 0 < k
    · simp only [hk, if_true] at h h'
      obtain ⟨s1, h1, h⟩ := Outcome.bind_eq_ok.1 h
      obtain ⟨t1, h1', h'⟩ := Outcome.bind_eq_ok.1 h'
      cases h; cases h'
      rw [inSlice_toG]
      exact (hn _ _ _ _ ha h1 h1').inSlice hK k hb
    · simp only [hk, if_false] at h h'
      exact hn _ _ _ _ hb h h'
  | peek ha hb =>
    simp only [Next.step, TNext.step] at h h'
    obtain ⟨s1, h1, h⟩ := Outcome.bind_eq_ok.1 h
    obtain ⟨s2, h2, h⟩ := Outcome.bind_eq_ok.1 h
    obtain ⟨t1, h1', h'⟩ := Outcome.bind_eq_ok.1 h'
    obtain ⟨t2, h2', h'⟩ := Outcome.bind_eq_ok.1 h'
    cases h; cases h'
    rw [peek_toG]
    exact (hn _ _ _ _ ha h1 h1').peek hK (hn _ _ _ _ hb h2 h2')
  | peekNot ha hb =>
    simp only [Next.step, TNext.step] at h h'
    obtain ⟨s1, h1, h⟩ := Outcome.bind_eq_ok.1 h
    obtain ⟨s2, h2, h⟩ := Outcome.bind_eq_ok.1 h
    obtain ⟨t1, h1', h'⟩ := Outcome.bind_eq_ok.1 h'
    obtain ⟨t2, h2', h'⟩ := Outcome.bind_eq_ok.1 h'
    cases h; cases h'
    rw [peekNot_toG]
    exact (hn _ _ _ _ ha h1 h1').peekNot hK (hn _ _ _ _ hb h2 h2')

theorem unionAll_untyped {m : Module} {n : Nat} (hu : UntypedOk τ m n) {x : Next} {y : TNext τ} (hx : NRel m x y) :
    ∀ (fs : List Format) {s s0 t t0}, Format.EachOf Format.BytesHere fs → SRel (NRel m) (toG s0) t0 →
      unionAll (fun f => Format.step m n f x) s0 fs = .ok s →
      GStep.unionAll (TNext.conts τ) (fun f => Format.stepT m n f y) t0 fs = .ok t → SRel (NRel m) (toG s) t
  | [], s, s0, t, t0, _, h0, h, h' => by
    simp only [unionAll, GStep.unionAll, Outcome.ok.injEq] at h h'
    subst h; subst h'; exact h0
  | f :: fs, s, s0, t, t0, hb, h0, h, h' => by
    simp only [unionAll, GStep.unionAll] at h h'
    obtain ⟨s1, h1, h⟩ := Outcome.bind_eq_ok.1 h
    obtain ⟨t1, h1', h'⟩ := Outcome.bind_eq_ok.1 h'
    refine unionAll_untyped hu hx fs hb.2 ?_ h h'
    rw [union_toG]
    exact h0.union (closed m) (hu _ _ _ _ _ hb.1 hx h1 h1')

theorem unionAll_typed {m : Module} {n : Nat} (hu : TypedOk τ m n) {x : Next} {y : TNext τ} (hx : NRel m x y) :
    ∀ (fs : List (TFormat τ)) {s s0 t t0}, TFormat.FitList m fs → SRel (NRel m) (toG s0) t0 →
      unionAll (fun f => Format.step m n f x) s0 (TFormat.eraseList fs) = .ok s →
      GStep.unionAll (TNext.conts τ) (fun f => TFormat.step m n f y) t0 fs = .ok t → SRel (NRel m) (toG s) t
  | [], s, s0, t, t0, _, h0, h, h' => by
    simp only [TFormat.eraseList, unionAll, GStep.unionAll, Outcome.ok.injEq] at h h'
    subst h; subst h'; exact h0
  | f :: fs, s, s0, t, t0, hb, h0, h, h' => by
    simp only [TFormat.eraseList, unionAll, GStep.unionAll] at h h'
    obtain ⟨s1, h1, h⟩ := Outcome.bind_eq_ok.1 h
    obtain ⟨t1, h1', h'⟩ := Outcome.bind_eq_ok.1 h'
    refine unionAll_typed hu hx fs hb.2 ?_ h h'
    rw [union_toG]
    exact h0.union (closed m) (hu _ _ _ _ _ hb.1 hx h1 h1')

theorem untyped_step {m : Module} (hm : m.BytesOk) {n : Nat} (hn : NextOk τ m n) (hu : UntypedOk τ m n) :
    UntypedOk τ m (n + 1) := by
  intro f x y s t hb hx h h'
  have hK := closed (τ := τ) m
  cases f with
  | itemVar level args views =>
    simp only [Format.step, Format.stepT] at h h'
    obtain ⟨it, hi, h⟩ := Outcome.bind_eq_ok.1 h
    rw [hi] at h'
    rw [Outcome.ofPanicky_eq_ok] at hi
    refine hu _ _ _ _ _ (hm it ?_) hx h h'
    unfold Module.get at hi
    cases hg : m.items[level]? with
    | none => rw [hg] at hi; cases hi
    | some it' => rw [hg] at hi; cases hi; exact List.mem_of_getElem? hg
  | byte bs =>
    simp only [Format.step, Format.stepT, Outcome.ok.injEq] at h h'
    subst h; subst h'
    exact SRel.branch hb hx
  | align k =>
    simp only [Format.step, Format.stepT] at h h'
    by_cases h0 : k = 0
    · simp only [h0, if_true] at h; cases h
    · by_cases h1 : k = 1
      · simp only [h1, if_true] at h h'
        exact hn _ _ _ _ hx h h'
      · simp only [h0, h1, if_false, Outcome.ok.injEq] at h h'
        subst h; subst h'; exact SRel.acceptAll
  | fail =>
    simp only [Format.step, Format.stepT, Outcome.ok.injEq] at h h'
    subst h; subst h'; exact SRel.reject
  | union fs =>
    simp only [Format.step, Format.stepT] at h h'
    exact unionAll_untyped hu hx fs hb.2 SRel.reject h h'
  | unionNondet fs =>
    simp only [Format.step, Format.stepT] at h h'
    exact unionAll_untyped hu hx fs hb.2 SRel.reject h h'
  | match_ e bs =>
    simp only [Format.step, Format.stepT] at h h'
    exact unionAll_untyped hu hx _ (eachBranch_map bs hb.2) SRel.reject h h'
  | sequence fs =>
    cases fs with
    | nil => simp only [Format.step, Format.stepT] at h h'; exact hn _ _ _ _ hx h h'
    | cons f fs =>
      simp only [Format.step, Format.stepT] at h h'
      exact hu _ _ _ _ _ hb.2.1 (.sequence (.untyped hb.2.2) hx) h h'
  | tuple fs =>
    cases fs with
    | nil => simp only [Format.step, Format.stepT] at h h'; exact hn _ _ _ _ hx h h'
    | cons f fs =>
      simp only [Format.step, Format.stepT] at h h'
      exact hu _ _ _ _ _ hb.2.1 (.sequence (.untyped hb.2.2) hx) h h'
  | repeat_ a =>
    simp only [Format.step, Format.stepT] at h h'
    obtain ⟨s1, h1, h⟩ := Outcome.bind_eq_ok.1 h
    obtain ⟨s2, h2, h⟩ := Outcome.bind_eq_ok.1 h
    obtain ⟨t1, h1', h'⟩ := Outcome.bind_eq_ok.1 h'
    obtain ⟨t2, h2', h'⟩ := Outcome.bind_eq_ok.1 h'
    cases h; cases h'
    rw [union_toG]
    exact (hn _ _ _ _ hx h1 h1').union hK (hu _ _ _ _ _ hb.2 (.repeat_ (.untyped hb.2) hx) h2 h2')
  | forEach e l a =>
    simp only [Format.step, Format.stepT] at h h'
    obtain ⟨s1, h1, h⟩ := Outcome.bind_eq_ok.1 h
    obtain ⟨b, hbd, h⟩ := Outcome.bind_eq_ok.1 h
    obtain ⟨t1, h1', h'⟩ := Outcome.bind_eq_ok.1 h'
    rw [hbd] at h'
    simp only [Outcome.bind_ok] at h'
    by_cases hz : b.min = 0
    · simp only [hz, if_true] at h h'
      by_cases hz2 : b.max = some 0
      · simp only [hz2, if_true, Outcome.ok.injEq] at h h'
        subst h; subst h'
        exact hn _ _ _ _ hx h1 h1'
      · simp only [hz2, if_false, Outcome.ok.injEq] at h h'
        subst h; subst h'; exact SRel.acceptAll
    · simp only [hz, if_false] at h h'
      obtain ⟨s2, h2, h⟩ := Outcome.bind_eq_ok.1 h
      obtain ⟨t2, h2', h'⟩ := Outcome.bind_eq_ok.1 h'
      cases h; cases h'
      rw [union_toG]
      exact (hn _ _ _ _ hx h1 h1').union hK (hu _ _ _ _ _ hb.2 (.repeat_ (.untyped hb.2) hx) h2 h2')
  | repeat1 a =>
    simp only [Format.step, Format.stepT] at h h'
    exact hu _ _ _ _ _ hb.2 (.repeat_ (.untyped hb.2) hx) h h'
  | repeatCount e a =>
    simp only [Format.step, Format.stepT] at h h'
    obtain ⟨b, hbd, h⟩ := Outcome.bind_eq_ok.1 h
    rw [hbd] at h'
    simp only [Outcome.bind_ok] at h'
    cases hE : b.asExact with
    | some k =>
      simp only [hE] at h h'
      exact hn _ _ _ _ (.repeatCount (.untyped hb.2) hx) h h'
    | none =>
      simp only [hE] at h h'
      exact hn _ _ _ _ (.repeatCount (.untyped hb.2) .empty) h h'
  | repeatBetween e1 e2 a =>
    simp only [Format.step, Format.stepT] at h h'
    obtain ⟨b, hbd, h⟩ := Outcome.bind_eq_ok.1 h
    obtain ⟨c, hcd, h⟩ := Outcome.bind_eq_ok.1 h
    rw [hbd] at h'
    rw [hcd] at h'
    simp only [Outcome.bind_ok] at h'
    cases hE : b.asExact with
    | none => simp only [hE] at h; cases h
    | some lo =>
      cases hF : c.asExact with
      | none => simp only [hE, hF] at h; cases h
      | some hi =>
        simp only [hE, hF] at h h'
        by_cases hlt : lo < hi
        · simp only [hlt, if_true] at h h'
          by_cases hp : 0 < lo
          · simp only [hp, if_true] at h h'
            exact hu _ _ _ _ _ hb.2 (.repeatBetween (.untyped hb.2) hx) h h'
          · simp only [hp, if_false] at h h'
            exact hn _ _ _ _ (.repeatMax (.untyped hb.2) hx) h h'
        · simp only [hlt, if_false] at h h'
          by_cases he : lo = hi
          · simp only [he, if_true] at h h'
            exact hn _ _ _ _ (.repeatCount (.untyped hb.2) hx) h h'
          · simp only [he, if_false] at h; cases h
  | maybe e a =>
    simp only [Format.step, Format.stepT] at h h'
    obtain ⟨s1, h1, h⟩ := Outcome.bind_eq_ok.1 h
    obtain ⟨s2, h2, h⟩ := Outcome.bind_eq_ok.1 h
    obtain ⟨t1, h1', h'⟩ := Outcome.bind_eq_ok.1 h'
    obtain ⟨t2, h2', h'⟩ := Outcome.bind_eq_ok.1 h'
    cases h; cases h'
    rw [union_toG]
    exact (hu _ _ _ _ _ hb.2 hx h1 h1').union hK (hn _ _ _ _ hx h2 h2')
  | peek a =>
    simp only [Format.step, Format.stepT] at h h'
    obtain ⟨s1, h1, h⟩ := Outcome.bind_eq_ok.1 h
    obtain ⟨s2, h2, h⟩ := Outcome.bind_eq_ok.1 h
    obtain ⟨t1, h1', h'⟩ := Outcome.bind_eq_ok.1 h'
    obtain ⟨t2, h2', h'⟩ := Outcome.bind_eq_ok.1 h'
    cases h; cases h'
    rw [peek_toG]
    exact (hn _ _ _ _ hx h1 h1').peek hK (hu _ _ _ _ _ hb.2 .empty h2 h2')
  | peekNot a =>
    simp only [Format.step, Format.stepT] at h h'
    obtain ⟨s1, h1, h⟩ := Outcome.bind_eq_ok.1 h
    obtain ⟨s2, h2, h⟩ := Outcome.bind_eq_ok.1 h
    obtain ⟨t1, h1', h'⟩ := Outcome.bind_eq_ok.1 h'
    obtain ⟨t2, h2', h'⟩ := Outcome.bind_eq_ok.1 h'
    cases h; cases h'
    rw [peekNot_toG]
    exact (hn _ _ _ _ hx h1 h1').peekNot hK (hu _ _ _ _ _ hb.2 .empty h2 h2')
  | slice e a =>
    simp only [Format.step, Format.stepT] at h h'
    obtain ⟨b, hbd, h⟩ := Outcome.bind_eq_ok.1 h
    rw [hbd] at h'
    simp only [Outcome.bind_ok] at h'
    cases hE : b.asExact with
    | some k =>
      simp only [hE] at h h'
      exact hn _ _ _ _ (.slice (.cat (.untyped hb.2) .empty) hx) h h'
    | none =>
      simp only [hE] at h h'
      exact hn _ _ _ _ (.slice (.cat (.untyped hb.2) .empty) .empty) h h'
  | monadSeq a b =>
    simp only [Format.step, Format.stepT] at h h'
    exact hu _ _ _ _ _ hb.2.1 (.cat (.untyped hb.2.2) hx) h h'
  | letFormat a z b =>
    simp only [Format.step, Format.stepT] at h h'
    exact hu _ _ _ _ _ hb.2.1 (.cat (.untyped hb.2.2) hx) h h'
  | _ =>
    simp only [Format.step, Format.stepT] at h h'
    first
      | exact hn _ _ _ _ hx h h'
      | exact hu _ _ _ _ _ hb.2 hx h h'
      | (simp only [Outcome.ok.injEq] at h h'; subst h; subst h'; exact SRel.acceptAll)

theorem typed_step {m : Module} (hm : m.BytesOk) {n : Nat} (hn : NextOk τ m n) (hu : UntypedOk τ m n)
    (ht : TypedOk τ m n) : TypedOk τ m (n + 1) := by
  intro f x y s t hb hx h h'
  have hK := closed (τ := τ) m
  cases f with
  | formatCall ty level args views d =>
    simp only [TFormat.erase, Format.step, TFormat.step] at h h'
    obtain ⟨it, hi, h⟩ := Outcome.bind_eq_ok.1 h
    rw [hi] at h'
    rw [Outcome.ofPanicky_eq_ok] at hi
    refine hu _ _ _ _ _ (hm it ?_) hx h h'
    unfold Module.get at hi
    cases hg : m.items[level]? with
    | none => rw [hg] at hi; cases hi
    | some it' => rw [hg] at hi; cases hi; exact List.mem_of_getElem? hg
  | byte bs =>
    simp only [TFormat.erase, Format.step, TFormat.step, Outcome.ok.injEq] at h h'
    subst h; subst h'
    exact SRel.branch hb hx
  | align k =>
    simp only [TFormat.erase, Format.step, TFormat.step] at h h'
    have hb : 2 ≤ k := hb
    have h0 : ¬ k = 0 := by omega
    have h1 : ¬ k = 1 := by omega
    simp only [h0, h1, if_false, Outcome.ok.injEq] at h h'
    subst h; subst h'; exact SRel.acceptAll
  | fail =>
    simp only [TFormat.erase, Format.step, TFormat.step, Outcome.ok.injEq] at h h'
    subst h; subst h'; exact SRel.reject
  | union ty fs =>
    simp only [TFormat.erase, Format.step, TFormat.step] at h h'
    exact unionAll_typed ht hx fs hb SRel.reject h h'
  | unionNondet ty fs =>
    simp only [TFormat.erase, Format.step, TFormat.step] at h h'
    exact unionAll_typed ht hx fs hb SRel.reject h h'
  | match_ ty e bs =>
    simp only [TFormat.erase, Format.step, TFormat.step, eraseBranches_map] at h h'
    exact unionAll_typed ht hx _ (fitBranches_map m bs hb) SRel.reject h h'
  | sequence ty fs =>
    cases fs with
    | nil =>
      simp only [TFormat.erase, TFormat.eraseList, Format.step, TFormat.step] at h h'
      exact hn _ _ _ _ hx h h'
    | cons f fs =>
      simp only [TFormat.erase, TFormat.eraseList, Format.step, TFormat.step] at h h'
      exact ht _ _ _ _ _ hb.1 (.sequence (.typed hb.2) hx) h h'
  | tuple ty fs =>
    cases fs with
    | nil =>
      simp only [TFormat.erase, TFormat.eraseList, Format.step, TFormat.step] at h h'
      exact hn _ _ _ _ hx h h'
    | cons f fs =>
      simp only [TFormat.erase, TFormat.eraseList, Format.step, TFormat.step] at h h'
      exact ht _ _ _ _ _ hb.1 (.sequence (.typed hb.2) hx) h h'
  | repeat_ ty a =>
    have hb : a.Fit m := hb
    simp only [TFormat.erase, Format.step, TFormat.step] at h h'
    obtain ⟨s1, h1, h⟩ := Outcome.bind_eq_ok.1 h
    obtain ⟨s2, h2, h⟩ := Outcome.bind_eq_ok.1 h
    obtain ⟨t1, h1', h'⟩ := Outcome.bind_eq_ok.1 h'
    obtain ⟨t2, h2', h'⟩ := Outcome.bind_eq_ok.1 h'
    cases h; cases h'
    rw [union_toG]
    exact (hn _ _ _ _ hx h1 h1').union hK (ht _ _ _ _ _ hb (.repeat_ (.typed hb) hx) h2 h2')
  | forEach ty e l a =>
    obtain ⟨hb, b, c, hbe, hce, hmin, hmax⟩ := hb
    simp only [TFormat.erase, Format.step, TFormat.step, hbe, hce, Outcome.ofPanicky, Outcome.bind_ok] at h h'
    obtain ⟨s1, h1, h⟩ := Outcome.bind_eq_ok.1 h
    obtain ⟨t1, h1', h'⟩ := Outcome.bind_eq_ok.1 h'
    by_cases hz : b.min = 0
    · have hz' := hmin.1 hz
      simp only [hz, hz', if_true] at h h'
      by_cases hz2 : b.max = some 0
      · have hz2' := hmax.1 hz2
        simp only [hz2, hz2', if_true, Outcome.ok.injEq] at h h'
        subst h; subst h'
        exact hn _ _ _ _ hx h1 h1'
      · have hz2' : ¬ c.max = some 0 := fun h => hz2 (hmax.2 h)
        simp only [hz2, hz2', if_false, Outcome.ok.injEq] at h h'
        subst h; subst h'; exact SRel.acceptAll
    · have hz' : ¬ c.min = 0 := fun h => hz (hmin.2 h)
      simp only [hz, hz', if_false] at h h'
      obtain ⟨s2, h2, h⟩ := Outcome.bind_eq_ok.1 h
      obtain ⟨t2, h2', h'⟩ := Outcome.bind_eq_ok.1 h'
      cases h; cases h'
      rw [union_toG]
      exact (hn _ _ _ _ hx h1 h1').union hK (ht _ _ _ _ _ hb (.repeat_ (.typed hb) hx) h2 h2')
  | repeat1 ty a =>
    have hb : a.Fit m := hb
    simp only [TFormat.erase, Format.step, TFormat.step] at h h'
    exact ht _ _ _ _ _ hb (.repeat_ (.typed hb) hx) h h'
  | repeatCount ty e a =>
    obtain ⟨⟨b, hbe, hex, hmin⟩, hb⟩ := hb
    simp only [TFormat.erase, Format.step, TFormat.step, hbe, Outcome.ofPanicky, Outcome.bind_ok, hex, hmin] at h h'
    cases hE : e.typedBounds.asExact with
    | some k =>
      simp only [hE] at h h'
      exact hn _ _ _ _ (.repeatCount (.typed hb) hx) h h'
    | none =>
      simp only [hE] at h h'
      exact hn _ _ _ _ (.repeatCount (.typed hb) .empty) h h'
  | repeatBetween ty e1 e2 a =>
    obtain ⟨⟨b, hbe, hex, _⟩, ⟨c, hce, hex2, _⟩, hb⟩ := hb
    simp only [TFormat.erase, Format.step, TFormat.step, hbe, hce, Outcome.ofPanicky, Outcome.bind_ok, hex, hex2] at h h'
    cases hE : e1.typedBounds.asExact with
    | none => simp only [hE] at h; cases h
    | some lo =>
      cases hF : e2.typedBounds.asExact with
      | none => simp only [hE, hF] at h; cases h
      | some hi =>
        simp only [hE, hF] at h h'
        by_cases hlt : lo < hi
        · simp only [hlt, if_true] at h h'
          by_cases hp : 0 < lo
          · simp only [hp, if_true] at h h'
            exact ht _ _ _ _ _ hb (.repeatBetween (.typed hb) hx) h h'
          · simp only [hp, if_false] at h h'
            exact hn _ _ _ _ (.repeatMax (.typed hb) hx) h h'
        · simp only [hlt, if_false] at h h'
          by_cases he : lo = hi
          · simp only [he, if_true] at h h'
            exact hn _ _ _ _ (.repeatCount (.typed hb) hx) h h'
          · simp only [he, if_false] at h; cases h
  | maybe ty e a =>
    simp only [TFormat.erase, Format.step, TFormat.step] at h h'
    obtain ⟨s1, h1, h⟩ := Outcome.bind_eq_ok.1 h
    obtain ⟨s2, h2, h⟩ := Outcome.bind_eq_ok.1 h
    obtain ⟨t1, h1', h'⟩ := Outcome.bind_eq_ok.1 h'
    obtain ⟨t2, h2', h'⟩ := Outcome.bind_eq_ok.1 h'
    cases h; cases h'
    rw [union_toG]
    exact (ht _ _ _ _ _ hb.2 hx h1 h1').swap hK (hn _ _ _ _ hx h2 h2')
  | peek ty a =>
    have hb : a.Fit m := hb
    simp only [TFormat.erase, Format.step, TFormat.step] at h h'
    obtain ⟨s1, h1, h⟩ := Outcome.bind_eq_ok.1 h
    obtain ⟨s2, h2, h⟩ := Outcome.bind_eq_ok.1 h
    obtain ⟨t1, h1', h'⟩ := Outcome.bind_eq_ok.1 h'
    obtain ⟨t2, h2', h'⟩ := Outcome.bind_eq_ok.1 h'
    cases h; cases h'
    rw [peek_toG]
    exact (hn _ _ _ _ hx h1 h1').peek hK (ht _ _ _ _ _ hb .empty h2 h2')
  | peekNot ty a =>
    have hb : a.Fit m := hb
    simp only [TFormat.erase, Format.step, TFormat.step] at h h'
    obtain ⟨s1, h1, h⟩ := Outcome.bind_eq_ok.1 h
    obtain ⟨s2, h2, h⟩ := Outcome.bind_eq_ok.1 h
    obtain ⟨t1, h1', h'⟩ := Outcome.bind_eq_ok.1 h'
    obtain ⟨t2, h2', h'⟩ := Outcome.bind_eq_ok.1 h'
    cases h; cases h'
    rw [peekNot_toG]
    exact (hn _ _ _ _ hx h1 h1').peekNot hK (ht _ _ _ _ _ hb .empty h2 h2')
  | slice ty e a =>
    obtain ⟨⟨b, hbe, hex, hmin⟩, hb⟩ := hb
    simp only [TFormat.erase, Format.step, TFormat.step, hbe, Outcome.ofPanicky, Outcome.bind_ok, hex, hmin] at h h'
    cases hE : e.typedBounds.asExact with
    | some k =>
      simp only [hE] at h h'
      exact hn _ _ _ _ (.slice (.cat (.typed hb) .empty) hx) h h'
    | none =>
      simp only [hE] at h h'
      exact hn _ _ _ _ (.slice (.cat (.typed hb) .empty) .empty) h h'
  | variant ty l a =>
    simp only [TFormat.erase, Format.step, TFormat.step] at h h'
    exact ht _ _ _ _ _ hb.2 hx h h'
  | monadSeq ty a b =>
    simp only [TFormat.erase, Format.step, TFormat.step] at h h'
    exact ht _ _ _ _ _ hb.1 (.cat (.typed hb.2) hx) h h'
  | letFormat ty a z b =>
    simp only [TFormat.erase, Format.step, TFormat.step] at h h'
    exact ht _ _ _ _ _ hb.1 (.cat (.typed hb.2) hx) h h'
  | _ =>
    simp only [TFormat.erase, Format.step, TFormat.step] at h h'
    first
      | exact hn _ _ _ _ hx h h'
      | (refine ht _ _ _ _ _ ?_ hx h h'; exact hb)
      | (simp only [Outcome.ok.injEq] at h h'; subst h; subst h'; exact SRel.acceptAll)

theorem steps_ok {m : Module} (hm : m.BytesOk) : ∀ n, NextOk τ m n ∧ UntypedOk τ m n ∧ TypedOk τ m n
  | 0 => ⟨(fun _ _ _ _ _ h => nomatch h), (fun _ _ _ _ _ _ _ h => nomatch h), (fun _ _ _ _ _ _ _ h => nomatch h)⟩
  | n + 1 => by
    obtain ⟨hn, hu, ht⟩ := steps_ok hm n
    exact ⟨next_step hn hu ht, untyped_step hm hn hu, typed_step hm hn hu ht⟩

/-! ### the untyped tree as a generic one -/

/-- `Next.step` with generic steps -/
def gstep (m : Module) (fuel : Nat) (x : Next) : Run (GStep Next) := do
  let s ← Next.step m fuel x
  .ok (toG s)

theorem level_split_eq (e : Nat × Next) : ∀ (l : List (ByteSet × LevelBranch)) (bs : ByteSet),
    Level.splitBranches e bs l = GLevel.splitBranches e bs l
  | [], _ => rfl
  | (_, _) :: l, bs => by simp only [Level.splitBranches, GLevel.splitBranches, level_split_eq e l]

theorem level_merges_eq (i : Nat) : ∀ (l : List (ByteSet × Next)) (acc : List (ByteSet × LevelBranch)),
    Level.mergeBranches i acc l = GLevel.mergeBranches i acc l
  | [], _ => rfl
  | (_, _) :: l, acc => by
    simp only [Level.mergeBranches, GLevel.mergeBranches, level_merges_eq i l, Level.mergeBranch, GLevel.mergeBranch,
      level_split_eq]

def toGL (l : Level) : GLevel Next := ⟨l.accept, l.branches⟩

theorem mergeAll_eq (m : Module) (fuel : Nat) : ∀ (es : LevelBranch) (l : Level),
    GLevel.mergeAll (gstep m fuel) (toGL l) es = (do
      let r ← Level.mergeAll m fuel l es
      .ok (r.map toGL))
  | [], _ => rfl
  | (i, x) :: es, l => by
    simp only [GLevel.mergeAll, Level.mergeAll, gstep]
    cases hs : Next.step m fuel x with
    | ok s =>
      simp only [Outcome.bind_ok]
      have : (toGL l).mergeStep i (toG s) = (l.mergeStep i s).map toGL := by
        unfold GLevel.mergeStep Level.mergeStep toGL toG
        dsimp only
        cases s.accept with
        | false => simp only [Bool.false_eq_true, if_false, Option.map_some, level_merges_eq]
        | true =>
          simp only [if_true]
          have : GLevel.mergeAccept l.accept i = Level.mergeAccept l.accept i := rfl
          rw [this]
          cases Level.mergeAccept l.accept i with
          | none => rfl
          | some a => simp only [Option.map_some, level_merges_eq]
      rw [this]
      cases hm : l.mergeStep i s with
      | none => rfl
      | some l' => exact mergeAll_eq m fuel es l'
    | err e => exact e.elim
    | panic => rfl
    | fuel => rfl

theorem accepts_eq (es : LevelBranch) : ∀ a, GLevel.acceptsLoop a es = Level.acceptsLoop a es := by
  induction es with
  | nil => intro a; rfl
  | cons e es ih =>
    intro a
    obtain ⟨i, x⟩ := e
    simp only [GLevel.acceptsLoop, Level.acceptsLoop]
    have : GLevel.mergeAccept a i = Level.mergeAccept a i := rfl
    rw [this]
    cases Level.mergeAccept a i with
    | none => rfl
    | some b => exact ih b

theorem sort_eq : ∀ es : LevelBranch, GLevel.sortByIx es = Level.sortByIx es
  | [] => rfl
  | x :: es => by
    have hi : ∀ l : LevelBranch, GLevel.insertByIx x l = Level.insertByIx x l := by
      intro l
      induction l with
      | nil => rfl
      | cons y l ih => simp only [GLevel.insertByIx, Level.insertByIx, ih]
    simp only [GLevel.sortByIx, Level.sortByIx, sort_eq es, hi]

theorem growBranches_eq {g g' : Nat → LevelBranch → Run (Option MatchTree)} (h : ∀ p l, g p l = g' p l) :
    ∀ (l : List (ByteSet × LevelBranch)) (pos : Nat), GLevel.growBranches g pos l = Level.growBranches g' pos l
  | [], _ => rfl
  | (bs, es) :: l, pos => by
    simp only [GLevel.growBranches, Level.growBranches, h, growBranches_eq h l]
    rfl

theorem grow_eq (m : Module) (ord : HashOrder) (fuel : Nat) : ∀ (d : Nat) (p : List Nat) (es : LevelBranch),
    GLevel.grow (gstep m fuel) ord d p es = Level.grow m ord fuel d p es := by
  intro d
  induction d with
  | zero =>
    intro p es
    unfold GLevel.grow Level.grow GLevel.accepts Level.accepts
    rw [accepts_eq]
    cases Level.acceptsLoop none (ord p es) <;> rfl
  | succ d ih =>
    intro p es
    unfold GLevel.grow Level.grow GLevel.accepts Level.accepts
    rw [accepts_eq]
    cases Level.acceptsLoop none (ord p es) with
    | some a => rfl
    | none =>
      dsimp only
      rw [sort_eq]
      have := mergeAll_eq m fuel (Level.sortByIx (ord p es)) Level.reject
      have h0 : toGL Level.reject = GLevel.reject := rfl
      rw [h0] at this
      rw [this]
      cases Level.mergeAll m fuel Level.reject (Level.sortByIx (ord p es)) with
      | ok r =>
        cases r with
        | none => rfl
        | some l =>
          simp only [Outcome.bind_ok, Option.map_some]
          rw [growBranches_eq (fun pos nexts => ih (pos :: p) nexts)]
          rfl
      | err e => exact e.elim
      | panic => rfl
      | fuel => rfl

theorem initial_rel {m : Module} {x : Next} {y : TNext τ} (hx : NRel m x y) : ∀ (fs : List Format) (i : Nat),
    Format.EachOf Format.BytesHere fs → ERel (NRel m) (MatchTree.initial x i fs) (y.initial i fs)
  | [], _, _ => ⟨(fun _ _ h => nomatch h), (fun _ _ h => nomatch h)⟩
  | f :: fs, i, h => by
    have ih := initial_rel hx fs (i + 1) h.2
    constructor
    · intro j z hz
      rcases List.mem_cons.1 hz with he | hz
      · cases he
        exact ⟨_, List.mem_cons_self, .cat (.untyped h.1) hx⟩
      · obtain ⟨u, hu, hr⟩ := ih.fwd j z hz
        exact ⟨u, List.mem_cons_of_mem _ hu, hr⟩
    · intro j z hz
      rcases List.mem_cons.1 hz with he | hz
      · cases he
        exact ⟨_, List.mem_cons_self, .cat (.untyped h.1) hx⟩
      · obtain ⟨u, hu, hr⟩ := ih.bwd j z hz
        exact ⟨u, List.mem_cons_of_mem _ hu, hr⟩

/-- For related continuations, the two compilers' trees choose alike. -/
theorem build_agree {m : Module} (hm : m.BytesOk) {ord : HashOrder} {ord' : GHashOrder (TNext τ)} (ho : ord.Valid)
    (ho' : ord'.Valid) {fuel : Nat} {fs : List Format} (hf : Format.EachOf Format.BytesHere fs) {x : Next}
    {y : TNext τ} (hx : NRel m x y) {t t' : MatchTree} (h : MatchTree.build m ord fuel fs x = .ok (some t))
    (h' : TNext.build m ord' fuel fs y = .ok (some t')) : ∀ w, t.matchesBytes w = t'.matchesBytes w := by
  unfold MatchTree.build at h
  unfold TNext.build at h'
  rw [← grow_eq] at h
  refine grow_agree (R := NRel m) ?_ ho ho' _ _ _ _ _ _ _ (initial_rel hx fs 0 hf) h h'
  intro x y s t hr hs ht
  unfold gstep at hs
  obtain ⟨s0, h0, hs⟩ := Outcome.bind_eq_ok.1 hs
  cases hs
  exact (steps_ok hm fuel).1 x y s0 t hr h0 ht

end
end GTree
end Doodle
