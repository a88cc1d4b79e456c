import Verif.Model.Decoder
import Verif.Props.Decode

/-! Termination: a computation that yields the same result for every sufficiently large bound. -/

namespace Doodle

/-- With enough fuel the computation ends, always with the same result. -/
def Ends {ε α : Type} (p : Nat → Outcome ε α) : Prop :=
  ∃ N r, r ≠ .fuel ∧ ∀ n, N ≤ n → p n = r

namespace Ends
variable {ε α β : Type}

theorem const {x : Outcome ε α} (h : x ≠ .fuel) : Ends fun _ => x := ⟨0, x, h, fun _ _ => rfl⟩

theorem ok (a : α) : Ends fun _ => (.ok a : Outcome ε α) := const (fun h => by cases h)

theorem of_succ {p : Nat → Outcome ε α} (h : Ends fun n => p (n + 1)) : Ends p := by
  obtain ⟨N, r, hr, h⟩ := h
  refine ⟨N + 1, r, hr, fun n hn => ?_⟩
  obtain ⟨k, rfl⟩ : ∃ k, n = k + 1 := ⟨n - 1, by omega⟩
  exact h k (by omega)

theorem bind {p : Nat → Outcome ε α} {q : α → Nat → Outcome ε β} (hp : Ends p)
    (hq : ∀ a n, p n = .ok a → Ends (q a)) : Ends fun n => p n >>= fun a => q a n := by
  obtain ⟨N, r, hr, h⟩ := hp
  cases r with
  | ok a =>
    obtain ⟨M, r, hr, h'⟩ := hq a N (h N (Nat.le_refl _))
    refine ⟨max N M, r, hr, fun n hn => ?_⟩
    show (p n >>= fun a => q a n) = r
    rw [h n (by omega)]
    exact h' n (by omega)
  | err e =>
    refine ⟨N, .err e, (fun h => by cases h), fun n hn => ?_⟩
    show (p n >>= fun a => q a n) = _
    rw [h n hn]; rfl
  | panic =>
    refine ⟨N, .panic, (fun h => by cases h), fun n hn => ?_⟩
    show (p n >>= fun a => q a n) = _
    rw [h n hn]; rfl
  | fuel => exact absurd rfl hr

theorem panicky {x : Panicky α} {q : α → Nat → Outcome ε β} (hq : ∀ a, x = .ok a → Ends (q a)) :
    Ends fun n => (Outcome.ofPanicky x : Outcome ε α) >>= fun a => q a n := by
  cases x with
  | ok a => exact hq a rfl
  | panic => exact const (by intro h; cases h)

theorem then_ {x : Outcome ε α} (hx : x ≠ .fuel) {q : α → Nat → Outcome ε β} (hq : ∀ a, x = .ok a → Ends (q a)) :
    Ends fun n => x >>= fun a => q a n := by
  cases x with
  | ok a => exact hq a rfl
  | err e => exact const (by intro h; cases h)
  | panic => exact const (by intro h; cases h)
  | fuel => exact absurd rfl hx

theorem ofPanicky_ne {x : Panicky α} : (Outcome.ofPanicky x : Outcome ε α) ≠ .fuel := by
  cases x <;> intro h <;> cases h

/-- apply a function to the result -/
theorem map {p : Nat → Outcome ε α} {g : Outcome ε α → Outcome ε β} (hp : Ends p)
    (hg : ∀ x, x ≠ .fuel → g x ≠ .fuel) : Ends fun n => g (p n) := by
  obtain ⟨N, r, hr, h⟩ := hp
  exact ⟨N, g r, hg r hr, fun n hn => congrArg g (h n hn)⟩

end Ends

/-- `Ends` for a loop with its own bound on the number of iterations -/
def Ends2 {ε α : Type} (p : Nat → Nat → Outcome ε α) : Prop :=
  ∃ N r, r ≠ .fuel ∧ ∀ n, N ≤ n → ∀ k, N ≤ k → p n k = r

namespace Ends2
variable {ε α β : Type}

theorem diag {p : Nat → Nat → Outcome ε α} (h : Ends2 p) : Ends fun n => p n n := by
  obtain ⟨N, r, hr, h⟩ := h
  exact ⟨N, r, hr, fun n hn => h n hn n hn⟩

theorem const {x : Outcome ε α} (h : x ≠ .fuel) : Ends2 fun _ _ => x := ⟨0, x, h, fun _ _ _ _ => rfl⟩

theorem ok (a : α) : Ends2 fun _ _ => (.ok a : Outcome ε α) := const (fun h => by cases h)

theorem of_succ {p : Nat → Nat → Outcome ε α} (h : Ends2 fun n k => p n (k + 1)) : Ends2 p := by
  obtain ⟨N, r, hr, h⟩ := h
  refine ⟨N + 1, r, hr, fun n hn k hk => ?_⟩
  obtain ⟨j, rfl⟩ : ∃ j, k = j + 1 := ⟨k - 1, by omega⟩
  exact h n (by omega) j (by omega)

theorem bind {p : Nat → Outcome ε α} {q : α → Nat → Nat → Outcome ε β} (hp : Ends p)
    (hq : ∀ a n, p n = .ok a → Ends2 (q a)) : Ends2 fun n k => p n >>= fun a => q a n k := by
  obtain ⟨N, r, hr, h⟩ := hp
  cases r with
  | ok a =>
    obtain ⟨M, r, hr, h'⟩ := hq a N (h N (Nat.le_refl _))
    refine ⟨max N M, r, hr, fun n hn k hk => ?_⟩
    show (p n >>= fun a => q a n k) = r
    rw [h n (by omega)]
    exact h' n (by omega) k (by omega)
  | err e =>
    refine ⟨N, .err e, (fun h => by cases h), fun n hn k _ => ?_⟩
    show (p n >>= fun a => q a n k) = _
    rw [h n hn]; rfl
  | panic =>
    refine ⟨N, .panic, (fun h => by cases h), fun n hn k _ => ?_⟩
    show (p n >>= fun a => q a n k) = _
    rw [h n hn]; rfl
  | fuel => exact absurd rfl hr

theorem panicky {x : Panicky α} {q : α → Nat → Nat → Outcome ε β} (hq : ∀ a, x = .ok a → Ends2 (q a)) :
    Ends2 fun n k => (Outcome.ofPanicky x : Outcome ε α) >>= fun a => q a n k := by
  cases x with
  | ok a => exact hq a rfl
  | panic => exact const (by intro h; cases h)

end Ends2

namespace Decoder

/-- what is known of a step that decodes from a position inside the input -/
structure StepOk (p : Nat → ReadCtxt → Outcome DecodeErr Parsed) : Prop where
  ends : ∀ c, c.Inside → Ends fun n => p n c
  inside : ∀ n c w, c.Inside → p n c = .ok w → w.value.2.Inside

/-- … and moves on -/
structure StepMoves (p : Nat → ReadCtxt → Outcome DecodeErr Parsed) : Prop extends StepOk p where
  input : ∀ n c w, c.Inside → p n c = .ok w → w.value.2.input = c.input
  moves : ∀ n c w, c.Inside → p n c = .ok w → c.offset < w.value.2.offset

theorem foldItems_ends {σ : Type} {p : Nat → σ → ReadCtxt → Outcome DecodeErr Parsed}
    (xs : List σ) (hp : ∀ x ∈ xs, StepOk fun n c => p n x c) :
    ∀ acc : Acc, acc.value.2.Inside → Ends fun n => foldItems (p n) xs acc := by
  induction xs with
  | nil => intro acc _; exact .ok _
  | cons x xs ih =>
    intro acc hi
    have hx := hp x (by simp)
    exact .bind (hx.ends _ hi) fun w n hw =>
      ih (fun y hy => hp y (by simp [hy])) (push acc w) (hx.inside n _ w hi hw)

theorem whileLoop_ends {p : Nat → ReadCtxt → Outcome DecodeErr Parsed} (hp : StepMoves p) (tree : MatchTree) :
    ∀ j (acc : Acc), acc.value.2.Inside → acc.value.2.input.length - acc.value.2.offset = j →
      Ends2 fun n k => whileLoop tree (p n) k acc := by
  intro j
  induction j using Nat.strongRecOn with
  | _ j ih =>
    intro acc hi hj
    refine .of_succ ?_
    simp only [whileLoop]
    split
    · exact .const (by intro h; cases h)
    · refine .bind (hp.ends _ hi) fun w n hw => ?_
      have h1 := hp.inside n _ w hi hw
      have h2 := hp.input n _ w hi hw
      have h3 := hp.moves n _ w hi hw
      unfold ReadCtxt.Inside at h1
      exact ih _ (by simp only [push]; rw [← hj, h2]; rw [h2] at h1; omega) (push acc w) h1 rfl
    · exact .ok _

theorem untilLoop_ends {p : Nat → ReadCtxt → Outcome DecodeErr Parsed} (hp : StepMoves p) (tree : MatchTree) :
    ∀ j (acc : Acc), acc.value.2.Inside → acc.value.2.input.length - acc.value.2.offset = j →
      Ends2 fun n k => untilLoop tree (p n) k acc := by
  intro j
  induction j using Nat.strongRecOn with
  | _ j ih =>
    intro acc hi hj
    refine .of_succ ?_
    simp only [untilLoop]
    refine .bind (hp.ends _ hi) fun w n hw => ?_
    have h1 := hp.inside n _ w hi hw
    have h2 := hp.input n _ w hi hw
    have h3 := hp.moves n _ w hi hw
    split
    · exact .const (by intro h; cases h)
    · exact .ok _
    · unfold ReadCtxt.Inside at h1
      exact ih _ (by simp only [push]; rw [← hj, h2]; rw [h2] at h1; omega) (push acc w) h1 rfl

theorem untilDoneLoop_ends {p : Nat → ReadCtxt → Outcome DecodeErr Parsed} (hp : StepMoves p)
    (done : Value → List Value → Panicky Bool) :
    ∀ j (acc : Acc), acc.value.2.Inside → acc.value.2.input.length - acc.value.2.offset = j →
      Ends2 fun n k => untilDoneLoop done (p n) k acc := by
  intro j
  induction j using Nat.strongRecOn with
  | _ j ih =>
    intro acc hi hj
    refine .of_succ ?_
    simp only [untilDoneLoop]
    refine .bind (hp.ends _ hi) fun w n hw => .panicky fun b hb => ?_
    have h1 := hp.inside n _ w hi hw
    have h2 := hp.input n _ w hi hw
    have h3 := hp.moves n _ w hi hw
    split
    · exact .ok _
    · unfold ReadCtxt.Inside at h1
      exact ih _ (by simp only [push]; rw [← hj, h2]; rw [h2] at h1; omega) (push acc w) h1 rfl

theorem accumLoop_ends {p : Nat → ReadCtxt → Outcome DecodeErr Parsed} (hp : StepMoves p)
    (done : Value → List Value → Panicky Bool) (update : Value → Value → Panicky Value) :
    ∀ j (a : Value) (acc : Acc), acc.value.2.Inside → acc.value.2.input.length - acc.value.2.offset = j →
      Ends2 fun n k => accumLoop done update (p n) k a acc := by
  intro j
  induction j using Nat.strongRecOn with
  | _ j ih =>
    intro a acc hi hj
    refine .of_succ ?_
    simp only [accumLoop]
    refine .panicky fun b hb => ?_
    split
    · exact .ok _
    · refine .bind (hp.ends _ hi) fun w n hw => .panicky fun a' ha => ?_
      have h1 := hp.inside n _ w hi hw
      have h2 := hp.input n _ w hi hw
      have h3 := hp.moves n _ w hi hw
      unfold ReadCtxt.Inside at h1
      exact ih _ (by simp only [push]; rw [← hj, h2]; rw [h2] at h1; omega) a' (push acc w) h1 rfl

theorem betweenLoop_ends {p : Nat → ReadCtxt → Outcome DecodeErr Parsed} (hp : StepOk p) (tree : MatchTree)
    (min max : Nat) (start : ReadCtxt) :
    ∀ j (acc : Acc), acc.value.2.Inside → acc.value.1.length ≤ max → max - acc.value.1.length = j →
      Ends2 fun n k => betweenLoop tree min max start (p n) k acc := by
  intro j
  induction j with
  | zero =>
    intro acc hi hle hj
    refine .of_succ ?_
    simp only [betweenLoop]
    have : acc.value.1.length = max := by omega
    split
    · exact .const (by intro h; cases h)
    · simp only [this, or_true, if_true]
      split
      · exact .const (by intro h; cases h)
      · exact .ok _
  | succ j ih =>
    intro acc hi hle hj
    refine .of_succ ?_
    simp only [betweenLoop]
    split
    · exact .const (by intro h; cases h)
    · split
      · split
        · exact .const (by intro h; cases h)
        · exact .ok _
      · refine .bind (hp.ends _ hi) fun w n hw => ih (push acc w) (hp.inside n _ w hi hw) ?_ ?_
        · simp only [push, List.length_append, List.length_singleton]; omega
        · simp only [push, List.length_append, List.length_singleton]; omega

theorem captureLoop_ne (n : Nat) : ∀ c acc, captureLoop n c acc ≠ .fuel := by
  induction n with
  | zero => intro c acc h; cases h
  | succ n ih =>
    intro c acc
    simp only [captureLoop]
    split
    · intro h; cases h
    · exact ih _ _

theorem readBase_ne (c : ReadCtxt) (k : BaseKind) : readBase c k ≠ .fuel := by
  unfold readBase
  split
  · split <;> intro h <;> cases h
  · split
    · split
      · intro h; cases h
      · next n _ _ =>
        cases Value.mkNum (.fixed k.width) n <;> intro h <;> cases h
    · intro h; cases h

theorem readArrayLoop_ne (k : BaseKind) (n : Nat) : ∀ c acc, readArrayLoop k n c acc ≠ .fuel := by
  induction n with
  | zero => intro c acc h; cases h
  | succ n ih =>
    intro c acc
    simp only [readArrayLoop]
    cases hb : readBase c k with
    | ok r => exact ih _ _
    | err e => intro h; cases h
    | panic => intro h; cases h
    | fuel => exact absurd hb (readBase_ne c k)

theorem evalView_ne {δ : Type} (s : Scope δ) (v : ViewExpr) : evalView s v ≠ .fuel := by
  induction v with
  | var x => exact Ends.ofPanicky_ne
  | offset base e ih =>
    simp only [evalView]
    cases e.evalValue s with
    | panic => intro h; cases h
    | ok v =>
      cases hu : v.unwrapUsize with
      | panic => intro h; simp [hu, Outcome.ofPanicky] at h
      | ok n =>
        simp only [hu, Outcome.ofPanicky, Outcome.bind_ok]
        cases hv : evalView s base with
        | fuel => exact absurd hv ih
        | err e => intro h; cases h
        | panic => intro h; cases h
        | ok c =>
          simp only [Outcome.bind_ok]
          cases c.splitAt n with
          | panic => intro h; cases h
          | ok r => cases r <;> intro h <;> cases h

theorem evalArgs_ne {δ : Type} (s : Scope δ) (es : List (String × Expr)) : evalArgs s es ≠ .fuel := by
  induction es with
  | nil => intro h; cases h
  | cons p es ih =>
    obtain ⟨x, e⟩ := p
    simp only [evalArgs]
    cases e.evalValue s with
    | panic => intro h; cases h
    | ok v =>
      simp only [Outcome.ofPanicky, Outcome.bind_ok]
      cases hv : evalArgs s es with
      | fuel => exact absurd hv ih
      | err e => intro h; cases h
      | panic => intro h; cases h
      | ok c => intro h; cases h

theorem evalViewArgs_ne {δ : Type} (s : Scope δ) (es : List (String × ViewExpr)) : evalViewArgs s es ≠ .fuel := by
  induction es with
  | nil => intro h; cases h
  | cons p es ih =>
    obtain ⟨x, e⟩ := p
    simp only [evalViewArgs]
    cases hw : evalView s e with
    | fuel => exact absurd hw (evalView_ne s e)
    | err e => intro h; cases h
    | panic => intro h; cases h
    | ok v =>
      simp only [Outcome.bind_ok]
      cases hv : evalViewArgs s es with
      | fuel => exact absurd hv ih
      | err e => intro h; cases h
      | panic => intro h; cases h
      | ok c => intro h; cases h

theorem finishBits_ne (c : ReadCtxt) (r : Value × ReadCtxt) : finishBits c r ≠ .fuel := by
  unfold finishBits
  cases r.2.remaining with
  | panic => intro h; cases h
  | ok a =>
    cases c.remaining with
    | panic => intro h; cases h
    | ok b =>
      simp only [Outcome.ofPanicky, Outcome.bind_ok]
      split
      · intro h; cases h
      · cases c.splitAt (b.length - a.length / 8) with
        | panic => intro h; cases h
        | ok r => cases r <;> intro h <;> cases h

theorem parallelLoop_ends {p : Nat → Decoder → Outcome DecodeErr Parsed} (offset : Nat) (ds : List Decoder)
    (hp : ∀ d ∈ ds, Ends fun n => p n d) : ∀ i, Ends fun n => parallelLoop (p n) offset i ds := by
  induction ds with
  | nil => intro i; exact .const (by intro h; cases h)
  | cons d ds ih =>
    intro i
    obtain ⟨N, r, hr, h⟩ := hp d (by simp)
    obtain ⟨N', r', hr', h'⟩ := ih (fun d hd => hp d (by simp [hd])) (i + 1)
    cases r with
    | fuel => exact absurd rfl hr
    | ok w =>
      exact ⟨N, .ok (w.map fun r => (.branch i r.1, r.2)), (by intro h; cases h), fun n hn => by simp only [parallelLoop, h n hn]⟩
    | panic => exact ⟨N, .panic, (by intro h; cases h), fun n hn => by simp only [parallelLoop, h n hn]⟩
    | err e =>
      exact ⟨max N N', r', hr', fun n hn => by
        simp only [parallelLoop, h n (by omega)]; exact h' n (by omega)⟩

theorem matchLoop_ends {p : Nat → List (String × Value) → Decoder → Outcome DecodeErr Parsed} (head : Value)
    (ds : List (Pattern × Decoder)) (hp : ∀ q d bs, (q, d) ∈ ds → Ends fun n => p n bs d) :
    ∀ i, Ends fun n => matchLoop (p n) head i ds := by
  induction ds with
  | nil => intro i; exact .const (by intro h; cases h)
  | cons b ds ih =>
    intro i
    obtain ⟨q, d⟩ := b
    simp only [matchLoop]
    split
    · exact .bind (hp q d _ (by simp)) fun w _ _ => .ok _
    · exact ih (fun q d bs h => hp q d bs (by simp [h])) (i + 1)

end Decoder
end Doodle
