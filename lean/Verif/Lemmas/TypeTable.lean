import Verif.Lemmas.TypeAnalysis

/-! The table of answers about types does not change them. -/

namespace Doodle
namespace TypeAnalysis

/-! ### more steps change no answer -/

theorem le_bind' {α β : Type} {x y : Outcome Unit α} {f g : α → Outcome Unit β} (h : x.le y) (hf : ∀ a, (f a).le (g a)) :
    (x >>= f).le (y >>= g) := Outcome.le_bind h hf

def fuelSim : Sim (Outcome Unit) (Outcome Unit) where
  rel x y := x.le y
  pure a := Outcome.le_refl _
  bind h hf := le_bind' h hf

theorem on_le {α : Type} {f g : TypeDef → Outcome Unit α} (h : ∀ d, (f d).le (g d)) (defs : List TypeDef) (ix : Nat) :
    (match defs[ix]? with | some d => f d | none => Outcome.panic).le (match defs[ix]? with | some d => g d | none => Outcome.panic) := by
  cases defs[ix]? with
  | none => exact Outcome.le_refl _
  | some d => exact h d

theorem fuel_le {α : Type} (y : Outcome Unit α) : (Outcome.fuel : Outcome Unit α).le y := fun h => absurd rfl h

theorem plain_succ (defs : List TypeDef) (st : Strategy) : ∀ n, fuelSim.Ctx (Ctx.plain defs st n) (Ctx.plain defs st (n + 1))
  | 0 => ⟨fun _ => fuel_le _, fun _ => fuel_le _, fun _ => fuel_le _, fun _ => fuel_le _, fun _ => fuel_le _,
      Outcome.le_refl _, Outcome.le_refl _⟩
  | n + 1 => by
    have ih := plain_succ defs st n
    exact ⟨fun ix => on_le (sim_dNiches ih) defs ix, fun ix => on_le (sim_dSize ih) defs ix, fun ix => on_le (sim_dAlign ih) defs ix,
      fun ix => on_le (sim_dCopy ih) defs ix, fun ix => on_le (sim_dHeap ih st) defs ix, Outcome.le_refl _, Outcome.le_refl _⟩

theorem le_trans' {α : Type} {x y z : Outcome Unit α} (h : x.le y) (h' : y.le z) : x.le z := fun hx => by
  have e := h hx
  rw [h' (by rw [e]; exact hx), e]

theorem plain_le (defs : List TypeDef) (st : Strategy) {n m : Nat} (h : n ≤ m) :
    fuelSim.Ctx (Ctx.plain defs st n) (Ctx.plain defs st m) := by
  induction h with
  | refl =>
    exact ⟨fun _ => Outcome.le_refl _, fun _ => Outcome.le_refl _, fun _ => Outcome.le_refl _, fun _ => Outcome.le_refl _,
      fun _ => Outcome.le_refl _, Outcome.le_refl _, Outcome.le_refl _⟩
  | step _ ih =>
    have s := plain_succ defs st
    exact ⟨fun i => le_trans' (ih.niches i) ((s _).niches i), fun i => le_trans' (ih.size i) ((s _).size i),
      fun i => le_trans' (ih.align i) ((s _).align i), fun i => le_trans' (ih.copy i) ((s _).copy i),
      fun i => le_trans' (ih.heap i) ((s _).heap i), le_trans' ih.unreachable (s _).unreachable, le_trans' ih.overflow (s _).overflow⟩

/-! ### all numbers of steps at once -/

def Steps (α : Type) : Type := Nat → Outcome Unit α

instance : Monad Steps where
  pure a := fun _ => .ok a
  bind x f := fun n => (x n).bind fun a => f a n

def stepsCtx (defs : List TypeDef) (st : Strategy) : Ctx Steps :=
  ⟨fun i n => (Ctx.plain defs st n).niches i, fun i n => (Ctx.plain defs st n).size i, fun i n => (Ctx.plain defs st n).align i,
    fun i n => (Ctx.plain defs st n).copy i, fun i n => (Ctx.plain defs st n).heap i, fun _ => .panic, fun _ => .err ()⟩

def atSim (n : Nat) : Sim Steps (Outcome Unit) where
  rel X x := X n = x
  pure a := rfl
  bind {_ _ x y f g} h hf := by
    change (x n).bind (fun a => f a n) = y.bind g
    rw [h]; cases y with
    | ok a => exact hf a
    | err e => rfl
    | panic => rfl
    | fuel => rfl

theorem plain_panic (defs : List TypeDef) (st : Strategy) {α : Type} : ∀ n, (Ctx.plain defs st n).unreachable (α := α) = .panic
  | 0 => rfl
  | _ + 1 => rfl

theorem plain_err (defs : List TypeDef) (st : Strategy) {α : Type} : ∀ n, (Ctx.plain defs st n).overflow (α := α) = .err ()
  | 0 => rfl
  | _ + 1 => rfl

theorem at_ctx (defs : List TypeDef) (st : Strategy) (n : Nat) : (atSim n).Ctx (stepsCtx defs st) (Ctx.plain defs st n) :=
  ⟨fun _ => rfl, fun _ => rfl, fun _ => rfl, fun _ => rfl, fun _ => rfl, (plain_panic defs st n).symm, (plain_err defs st n).symm⟩

/-! ### with the table -/

/-- from some number of steps on -/
def Settles {α : Type} (X : Nat → Outcome Unit α) (o : Outcome Unit α) : Prop := ∃ m, ∀ n, m ≤ n → X n = o

def Mono {α : Type} (X : Nat → Outcome Unit α) : Prop := ∀ n m, n ≤ m → (X n).le (X m)

/-- every answer in the table is the one that is found without it -/
structure Valid (defs : List TypeDef) (st : Strategy) (c : Cache) : Prop where
  niches : ∀ i a, (c i).niches = some a → Settles (fun n => (Ctx.plain defs st n).niches i) (.ok a)
  size : ∀ i a, (c i).size = some a → Settles (fun n => (Ctx.plain defs st n).size i) (.ok a)
  align : ∀ i a, (c i).align = some a → Settles (fun n => (Ctx.plain defs st n).align i) (.ok a)
  copy : ∀ i a, (c i).copy = some a → Settles (fun n => (Ctx.plain defs st n).copy i) (.ok a)
  heap : ∀ i a, (c i).heap = some a → Settles (fun n => (Ctx.plain defs st n).heap i) (.ok a)

theorem valid_empty (defs : List TypeDef) (st : Strategy) : Valid defs st emptyCache :=
  ⟨(fun _ _ h => nomatch h), (fun _ _ h => nomatch h), (fun _ _ h => nomatch h), (fun _ _ h => nomatch h), (fun _ _ h => nomatch h)⟩

def After {α : Type} (V : Cache → Prop) (X : Nat → Outcome Unit α) : Outcome Unit (α × Cache) → Prop
  | .ok r => Settles X (.ok r.1) ∧ V r.2
  | .err e => Settles X (.err e)
  | .panic => Settles X .panic
  | .fuel => True

def Agrees {α : Type} (V : Cache → Prop) (n : Nat) (y : Cached α) (X : Steps α) : Prop :=
  Mono X ∧ ∀ c, V c → (X n ≠ .fuel → y c ≠ .fuel) ∧ After V X (y c)

theorem settled {α : Type} {X : Nat → Outcome Unit α} {o : Outcome Unit α} {n : Nat} (hm : Mono X) (h : Settles X o) (hn : X n ≠ .fuel) :
    X n = o := by
  obtain ⟨m, hm'⟩ := h
  have := hm n (max n m) (Nat.le_max_left _ _) hn
  rw [hm' _ (Nat.le_max_right _ _)] at this
  exact this.symm

theorem settles_bind {α β : Type} {X : Nat → Outcome Unit α} {F : α → Nat → Outcome Unit β} {a : α} {o : Outcome Unit β}
    (h : Settles X (.ok a)) (h' : Settles (F a) o) : Settles (fun n => (X n).bind fun a => F a n) o := by
  obtain ⟨m, hm⟩ := h; obtain ⟨k, hk⟩ := h'
  refine ⟨max m k, fun n hn => ?_⟩
  dsimp only
  rw [hm n (by omega)]
  exact hk n (by omega)

def tableSim (V : Cache → Prop) (n : Nat) : Sim Cached Steps where
  rel y X := Agrees V n y X
  pure a := ⟨fun _ _ _ => Outcome.le_refl _, fun c hc => ⟨fun _ => (fun h => nomatch h), ⟨0, fun _ _ => rfl⟩, hc⟩⟩
  bind {α β x y f g} h hf := by
    refine ⟨fun i j hij => Outcome.le_bind (h.1 i j hij) fun a => (hf a).1 i j hij, fun c hc => ?_⟩
    obtain ⟨h1, h2⟩ := h.2 c hc
    change ((y n).bind (fun a => g a n) ≠ .fuel → (match x c with
      | .ok (a, c') => f a c'
      | .err e => .err e
      | .panic => .panic
      | .fuel => .fuel) ≠ .fuel) ∧ After V (fun n => (y n).bind fun a => g a n) (match x c with
      | .ok (a, c') => f a c'
      | .err e => .err e
      | .panic => .panic
      | .fuel => .fuel)
    cases hx : x c with
    | ok r =>
      obtain ⟨a, c'⟩ := r
      rw [hx] at h2
      obtain ⟨h3, h4⟩ := (hf a).2 c' h2.2
      refine ⟨fun hn => h3 fun hg => hn ?_, ?_⟩
      · cases hy : y n with
        | fuel => rfl
        | ok b =>
          have := settled h.1 h2.1 (n := n) (by rw [hy]; exact fun h => nomatch h)
          rw [hy] at this
          cases this
          exact hg
        | err e =>
          have := settled h.1 h2.1 (n := n) (by rw [hy]; exact fun h => nomatch h)
          rw [hy] at this; cases this
        | panic =>
          have := settled h.1 h2.1 (n := n) (by rw [hy]; exact fun h => nomatch h)
          rw [hy] at this; cases this
      · dsimp only
        cases hfc : f a c' with
        | ok r =>
          rw [hfc] at h4
          exact ⟨settles_bind h2.1 h4.1, h4.2⟩
        | err e => rw [hfc] at h4; exact settles_bind h2.1 h4
        | panic => rw [hfc] at h4; exact settles_bind h2.1 h4
        | fuel => trivial
    | err e =>
      rw [hx] at h2
      obtain ⟨m, hm⟩ := h2
      exact ⟨(fun _ h => nomatch h), m, fun i hi => by dsimp only; rw [hm i hi]; rfl⟩
    | panic =>
      rw [hx] at h2
      obtain ⟨m, hm⟩ := h2
      exact ⟨(fun _ h => nomatch h), m, fun i hi => by dsimp only; rw [hm i hi]; rfl⟩
    | fuel =>
      refine ⟨fun hn => absurd ?_ hn, trivial⟩
      have : y n = .fuel := by
        cases hy : y n with
        | fuel => rfl
        | ok b => exact absurd hx (h1 (by rw [hy]; exact fun h => nomatch h))
        | err b => exact absurd hx (h1 (by rw [hy]; exact fun h => nomatch h))
        | panic => exact absurd hx (h1 (by rw [hy]; exact fun h => nomatch h))
      rw [this]; rfl

theorem get_agrees {α : Type} {V : Cache → Prop} {n ix : Nat} {get : Entry → Option α} {set : Entry → α → Entry} {compute : Cached α}
    {Y : Nat → Outcome Unit α} {X : Nat → Outcome Unit α} (hm : Mono X) (hX : ∀ m, X (m + 1) = Y m)
    (hY : Agrees V n compute Y) (hget : ∀ c a, V c → get (c ix) = some a → Settles X (.ok a))
    (hset : ∀ c a, V c → Settles X (.ok a) → V fun i => if i = ix then set (c i) a else c i) :
    Agrees V (n + 1) (cacheGet get set ix compute) X := by
  have shift : ∀ {o}, Settles Y o → Settles X o := fun {o} h => by
    obtain ⟨m, hm⟩ := h
    refine ⟨m + 1, fun k hk => ?_⟩
    obtain ⟨k, rfl⟩ : ∃ k', k = k' + 1 := ⟨k - 1, by omega⟩
    rw [hX]; exact hm k (by omega)
  refine ⟨hm, fun c hc => ?_⟩
  unfold cacheGet
  cases hg : get (c ix) with
  | some a => exact ⟨(fun _ h => nomatch h), hget c a hc hg, hc⟩
  | none =>
    dsimp only
    obtain ⟨h1, h2⟩ := hY.2 c hc
    rw [hX]
    cases hcc : compute c with
    | ok r =>
      obtain ⟨a, c'⟩ := r
      rw [hcc] at h2
      exact ⟨(fun _ h => nomatch h), shift h2.1, hset c' a h2.2 (shift h2.1)⟩
    | err e => rw [hcc] at h2; exact ⟨(fun _ h => nomatch h), shift h2⟩
    | panic => rw [hcc] at h2; exact ⟨(fun _ h => nomatch h), shift h2⟩
    | fuel => exact ⟨fun hn => absurd hcc (h1 hn), trivial⟩

theorem agrees_panic {α : Type} (V : Cache → Prop) (n : Nat) : Agrees (α := α) V n (fun _ => .panic) (fun _ => .panic) :=
  ⟨fun _ _ _ => Outcome.le_refl _, fun _ _ => ⟨(fun _ h => nomatch h), 0, fun _ _ => rfl⟩⟩

theorem agrees_err {α : Type} (V : Cache → Prop) (n : Nat) : Agrees (α := α) V n (fun _ => .err ()) (fun _ => .err ()) :=
  ⟨fun _ _ _ => Outcome.le_refl _, fun _ _ => ⟨(fun _ h => nomatch h), 0, fun _ _ => rfl⟩⟩

theorem agrees_congr {α : Type} {V : Cache → Prop} {n : Nat} {y : Cached α} {X X' : Steps α} (h : Agrees V n y X) (e : ∀ m, X m = X' m) :
    Agrees V n y X' := by
  have : X = X' := funext e
  rw [← this]; exact h

theorem agrees_on {α : Type} {V : Cache → Prop} {n : Nat} {f : TypeDef → Cached α} {g : TypeDef → Nat → Outcome Unit α}
    (h : ∀ d, Agrees V n (f d) (g d)) (defs : List TypeDef) (ix : Nat) :
    Agrees V n (match defs[ix]? with | some d => f d | none => fun _ => .panic)
      (fun m => match defs[ix]? with | some d => g d m | none => .panic) := by
  cases defs[ix]? with
  | none => exact agrees_panic _ _
  | some d => exact h d

theorem table_ctx (defs : List TypeDef) (st : Strategy) :
    ∀ n, (tableSim (Valid defs st) n).Ctx (Ctx.cached defs st n) (stepsCtx defs st)
  | 0 => by
    have m := fun {i j : Nat} (h : i ≤ j) => plain_le defs st h
    refine ⟨fun i => ⟨fun _ _ h => (m h).niches i, fun c _ => ⟨fun h => absurd rfl h, trivial⟩⟩,
      fun i => ⟨fun _ _ h => (m h).size i, fun c _ => ⟨fun h => absurd rfl h, trivial⟩⟩,
      fun i => ⟨fun _ _ h => (m h).align i, fun c _ => ⟨fun h => absurd rfl h, trivial⟩⟩,
      fun i => ⟨fun _ _ h => (m h).copy i, fun c _ => ⟨fun h => absurd rfl h, trivial⟩⟩,
      fun i => ⟨fun _ _ h => (m h).heap i, fun c _ => ⟨fun h => absurd rfl h, trivial⟩⟩, agrees_panic (Valid defs st) 0, agrees_err (Valid defs st) 0⟩
  | n + 1 => by
    have m := fun {i j : Nat} (h : i ≤ j) => plain_le defs st h
    have ih := table_ctx defs st n
    refine ⟨fun ix => ?_, fun ix => ?_, fun ix => ?_, fun ix => ?_, fun ix => ?_, agrees_panic (Valid defs st) (n + 1), agrees_err (Valid defs st) (n + 1)⟩
    · refine get_agrees (get := (·.niches)) (set := fun e a => { e with niches := some a }) (fun _ _ h => (m h).niches ix) (fun _ => rfl)
        (agrees_on (fun d => agrees_congr (sim_dNiches ih d) fun k => sim_dNiches (at_ctx defs st k) d) defs ix)
        (fun c a hc h => hc.niches ix a h) (fun c a hc h => ⟨fun i b hb => ?_, fun i b hb => ?_, fun i b hb => ?_, fun i b hb => ?_, fun i b hb => ?_⟩)
      · split at hb
        · subst_vars; cases hb; exact h
        · exact hc.niches i b hb
      · split at hb <;> exact hc.size i b hb
      · split at hb <;> exact hc.align i b hb
      · split at hb <;> exact hc.copy i b hb
      · split at hb <;> exact hc.heap i b hb
    · refine get_agrees (get := (·.size)) (set := fun e a => { e with size := some a }) (fun _ _ h => (m h).size ix) (fun _ => rfl)
        (agrees_on (fun d => agrees_congr (sim_dSize ih d) fun k => sim_dSize (at_ctx defs st k) d) defs ix)
        (fun c a hc h => hc.size ix a h) (fun c a hc h => ⟨fun i b hb => ?_, fun i b hb => ?_, fun i b hb => ?_, fun i b hb => ?_, fun i b hb => ?_⟩)
      · split at hb <;> exact hc.niches i b hb
      · split at hb
        · subst_vars; cases hb; exact h
        · exact hc.size i b hb
      · split at hb <;> exact hc.align i b hb
      · split at hb <;> exact hc.copy i b hb
      · split at hb <;> exact hc.heap i b hb
    · refine get_agrees (get := (·.align)) (set := fun e a => { e with align := some a }) (fun _ _ h => (m h).align ix) (fun _ => rfl)
        (agrees_on (fun d => agrees_congr (sim_dAlign ih d) fun k => sim_dAlign (at_ctx defs st k) d) defs ix)
        (fun c a hc h => hc.align ix a h) (fun c a hc h => ⟨fun i b hb => ?_, fun i b hb => ?_, fun i b hb => ?_, fun i b hb => ?_, fun i b hb => ?_⟩)
      · split at hb <;> exact hc.niches i b hb
      · split at hb <;> exact hc.size i b hb
      · split at hb
        · subst_vars; cases hb; exact h
        · exact hc.align i b hb
      · split at hb <;> exact hc.copy i b hb
      · split at hb <;> exact hc.heap i b hb
    · refine get_agrees (get := (·.copy)) (set := fun e a => { e with copy := some a }) (fun _ _ h => (m h).copy ix) (fun _ => rfl)
        (agrees_on (fun d => agrees_congr (sim_dCopy ih d) fun k => sim_dCopy (at_ctx defs st k) d) defs ix)
        (fun c a hc h => hc.copy ix a h) (fun c a hc h => ⟨fun i b hb => ?_, fun i b hb => ?_, fun i b hb => ?_, fun i b hb => ?_, fun i b hb => ?_⟩)
      · split at hb <;> exact hc.niches i b hb
      · split at hb <;> exact hc.size i b hb
      · split at hb <;> exact hc.align i b hb
      · split at hb
        · subst_vars; cases hb; exact h
        · exact hc.copy i b hb
      · split at hb <;> exact hc.heap i b hb
    · refine get_agrees (get := (·.heap)) (set := fun e a => { e with heap := some a }) (fun _ _ h => (m h).heap ix) (fun _ => rfl)
        (agrees_on (fun d => agrees_congr (sim_dHeap ih st d) fun k => sim_dHeap (at_ctx defs st k) st d) defs ix)
        (fun c a hc h => hc.heap ix a h) (fun c a hc h => ⟨fun i b hb => ?_, fun i b hb => ?_, fun i b hb => ?_, fun i b hb => ?_, fun i b hb => ?_⟩)
      · split at hb <;> exact hc.niches i b hb
      · split at hb <;> exact hc.size i b hb
      · split at hb <;> exact hc.align i b hb
      · split at hb <;> exact hc.copy i b hb
      · split at hb
        · subst_vars; cases hb; exact h
        · exact hc.heap i b hb

theorem answer_eq {α : Type} {V : Cache → Prop} {n : Nat} {y : Cached α} {X : Steps α} (h : Agrees V n y X) {c : Cache} (hc : V c)
    (hX : X n ≠ .fuel) : answer (y c) = X n := by
  obtain ⟨h1, h2⟩ := h.2 c hc
  have := h1 hX
  cases hy : y c with
  | ok r => rw [hy] at h2; exact (settled h.1 h2.1 hX).symm
  | err e => rw [hy] at h2; exact (settled h.1 h2 hX).symm
  | panic => rw [hy] at h2; exact (settled h.1 h2 hX).symm
  | fuel => exact absurd hy this

theorem after_valid {α : Type} {V : Cache → Prop} {n : Nat} {y : Cached α} {X : Steps α} (h : Agrees V n y X) {c c' : Cache} {r : α}
    (hc : V c) (hy : y c = .ok (r, c')) : V c' := by
  have := (h.2 c hc).2
  rw [hy] at this
  exact this.2

theorem reachable_valid {defs : List TypeDef} {st : Strategy} {c : Cache} (h : Reachable defs st c) : Valid defs st c := by
  induction h with
  | empty => exact valid_empty defs st
  | asked _ ha ih =>
    cases ha with
    | @niches d n _ _ _ h => exact after_valid (sim_dNiches (table_ctx defs st n) d) ih h
    | @size d n _ _ _ h => exact after_valid (sim_dSize (table_ctx defs st n) d) ih h
    | @align d n _ _ _ h => exact after_valid (sim_dAlign (table_ctx defs st n) d) ih h
    | @copy d n _ _ _ h => exact after_valid (sim_dCopy (table_ctx defs st n) d) ih h
    | @heap d n _ _ _ h => exact after_valid (sim_dHeap (table_ctx defs st n) st d) ih h

end TypeAnalysis
end Doodle
