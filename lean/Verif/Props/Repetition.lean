import Verif.Props.Combinators
import Verif.Props.Complete

/-!
C15, C12: what holds of a repetition between bounds (the claim itself is refuted by `C15_between_refuted`); repetitions in
items see what follows.
-/

namespace Doodle

open Grammar Compiler Tree

set_option linter.unusedSectionVars false

/-! ## Repetition between bounds -/

section
variable [DecidableEq Next]

theorem between_run {t : MatchTree} {lo hi : Nat} {start : ReadCtxt} {p : ReadCtxt → Outcome DecodeErr Parsed} {ix : Nat}
    (ht : t.matches start = some ix) (hix : ix ≠ 0) (hl : lo ≤ hi) {c c' : ReadCtxt} {vs : List Value} {es : List DecodeErr}
    (hc : Chain p c vs c' es) : ∀ (n : Nat) (ws : List Value) (es0 : List DecodeErr), ws.length + vs.length = hi →
      vs.length < n → Decoder.betweenLoop t lo hi start p n ⟨(ws, c), es0⟩ = .ok ⟨(ws ++ vs, c'), es ++ es0⟩ := by
  induction hc with
  | nil =>
    intro n ws es0 h1 h2
    cases n with
    | zero => omega
    | succ n =>
      simp only [List.length_nil, Nat.add_zero] at h1
      simp only [Decoder.betweenLoop, ht, h1, or_true, if_true]
      rw [if_neg (by omega)]
      simp
  | @cons c w vs c' es h hc ih =>
    intro n ws es0 h1 h2
    simp only [List.length_cons] at h1 h2
    cases n with
    | zero => omega
    | succ n =>
      simp only [Decoder.betweenLoop, ht]
      rw [if_neg (by omega), h]
      simp only [Outcome.bind_ok]
      have := ih n (ws ++ [w.value.1]) (w.errs ++ es0) (by simp; omega) (by omega)
      simpa [Decoder.push] using this

/-- The compiled repetition, and the alternative that its tree selects when the whole rest of the input is some number of
elements and what follows. -/
private theorem between_parts (m : Module) (E : Nat → Bool) (hm : m.Plain E) (o : BuildOpts) (ho : o.ord.Valid) (x y : Expr)
    (f : Format) (next : Next) (hf : f.Plain m E m.items.length false) (hn : next.Plain m E)
    (st st' : CompSt) (d : Decoder) (hd : compileFormat m o (.repeatBetween x y f) next st = .ok (d, st'))
    (by_ : Bounds) (hi : Nat) (hy : y.bounds = .ok by_) (hyi : by_.asExact = some hi) (h32 : hi < 2 ^ 32) :
    ∃ b next' t, compileFormat m o f next' st = .ok (b, st') ∧ d = .repeatBetween t x y b ∧
      ∀ (n : Nat) (c : ReadCtxt), n ≤ hi → Cat (Power m f n) (Follow m next) (c.input.drop c.offset) →
        t.matches c = some n := by
  obtain ⟨b1, _, hd⟩ := Outcome.bind_eq_ok.1 hd
  obtain ⟨mn, _, hd⟩ := Outcome.bind_eq_ok.1 hd
  obtain ⟨b2, hb2, hd⟩ := Outcome.bind_eq_ok.1 hd
  obtain ⟨mx, hmx, hd⟩ := Outcome.bind_eq_ok.1 hd
  obtain ⟨⟨b, st1⟩, h1, hd⟩ := Outcome.bind_eq_ok.1 hd
  obtain ⟨t1, ht1, hd⟩ := Outcome.bind_eq_ok.1 hd
  obtain ⟨t, ht, hd⟩ := Outcome.bind_eq_ok.1 hd
  have hb2 := Outcome.ofPanicky_eq_ok.1 hb2
  rw [hy] at hb2
  cases hb2
  have hmx := Compiler.unwrap_eq_ok.1 (Outcome.ofPanicky_eq_ok.1 hmx)
  rw [hyi] at hmx
  cases hmx
  have ht := Compiler.unwrap_eq_ok.1 (Outcome.ofPanicky_eq_ok.1 ht)
  subst ht
  cases hd
  refine ⟨b, _, t, h1, rfl, fun n c hn' hw => ?_⟩
  have hlit : ∀ k, k ≤ hi → (Expr.lit .b32 (Fin.ofNat _ k)).bounds = .ok (.exact k) := by
    intro k hk
    have : k % 4294967296 = k := Nat.mod_eq_of_lt (by omega)
    simp only [Expr.bounds]
    exact congrArg (fun n => Panicky.ok (Bounds.exact n)) this
  refine C12_selects_whole m E hm o.ord ho o.fuel (countFormats f hi) next ?_ hn t (Compiler.lift_eq_ok.1 ht1) n
    (.repeatCount (.lit .b32 (Fin.ofNat _ n)) f) ?_ c ?_
  · intro g hg
    obtain ⟨k, hk, rfl⟩ := List.mem_map.1 hg
    have hk := List.mem_range.1 hk
    simp only [Format.Plain]
    exact ⟨⟨_, k, hlit k (by omega), by simp [Bounds.exact, Bounds.asExact]⟩, hf⟩
  · unfold countFormats
    rw [List.getElem?_map, List.getElem?_range (by omega)]
    rfl
  · obtain ⟨a, z, e, ha, hz⟩ := hw
    exact ⟨a, z, e, .repeatCount (hlit n hn') (by simp [Bounds.exact, Bounds.asExact]) ha, hz⟩

/-- When the whole rest of the input is the greatest allowed number of elements, and what follows, then the greatest number
of elements is read. -/
theorem C15_between_full (m : Module) (E : Nat → Bool) (hm : m.Plain E) (o : BuildOpts) (ho : o.ord.Valid) (x y : Expr)
    (f : Format) (next : Next) (hf : f.Plain m E m.items.length false) (hn : next.Plain m E)
    (st st' : CompSt) (d : Decoder) (hd : compileFormat m o (.repeatBetween x y f) next st = .ok (d, st'))
    (by_ : Bounds) (hi : Nat) (hy : y.bounds = .ok by_) (hyi : by_.asExact = some hi) (h32 : hi < 2 ^ 32) (h0 : 0 < hi) :
    ∃ b next', compileFormat m o f next' st = .ok (b, st') ∧ ∀ env fuel s c lo vs c' es,
      Decoder.evalUsize x s = .ok lo → Decoder.evalUsize y s = .ok hi → lo ≤ hi → hi < fuel →
      Cat (Power m f hi) (Follow m next) (c.input.drop c.offset) →
      Chain (Decoder.parse env fuel b s) c vs c' es → vs.length = hi →
        Decoder.parse env (fuel + 1) d s c = .ok ⟨(.seq (.strict vs), c'), es⟩ := by
  obtain ⟨b, next', t, h1, rfl, ht⟩ := between_parts m E hm o ho x y f next hf hn st st' d hd by_ hi hy hyi h32
  refine ⟨b, next', h1, fun env fuel s c lo vs c' es hx hy' hl hfu hw hc hv => ?_⟩
  simp only [Decoder.parse, hx, hy', Outcome.ofPanicky, Outcome.bind_ok]
  have := between_run (ht hi c (Nat.le_refl _) hw) (by omega) hl hc fuel [] [] (by simpa using hv) (by omega)
  simp only [WithErr.new, this, Outcome.bind_ok, WithErr.map]
  simp

/-- When the whole rest of the input is what follows, no element is read, if none is demanded. -/
theorem C15_between_none (m : Module) (E : Nat → Bool) (hm : m.Plain E) (o : BuildOpts) (ho : o.ord.Valid) (x y : Expr)
    (f : Format) (next : Next) (hf : f.Plain m E m.items.length false) (hn : next.Plain m E)
    (st st' : CompSt) (d : Decoder) (hd : compileFormat m o (.repeatBetween x y f) next st = .ok (d, st'))
    (by_ : Bounds) (hi : Nat) (hy : y.bounds = .ok by_) (hyi : by_.asExact = some hi) (h32 : hi < 2 ^ 32)
    (env : Env) (fuel : Nat) (s : Scope Decoder) (c : ReadCtxt) (hx : Decoder.evalUsize x s = .ok 0)
    (hy' : Decoder.evalUsize y s = .ok hi) (hw : Follow m next (c.input.drop c.offset)) :
    Decoder.parse env (fuel + 2) d s c = .ok ⟨(.seq (.strict []), c), []⟩ := by
  obtain ⟨b, next', t, h1, rfl, ht⟩ := between_parts m E hm o ho x y f next hf hn st st' d hd by_ hi hy hyi h32
  have := ht 0 c (Nat.zero_le _) ⟨[], _, rfl, .zero, hw⟩
  simp [Decoder.parse, hx, hy', Outcome.ofPanicky, Outcome.bind_ok, Decoder.betweenLoop, this, WithErr.new, WithErr.map]

/-- Between 0 and 2 bytes 1: two are read from an input of two, none from an empty input. -/
example : ∃ (d : Decoder) (st : CompSt),
    @compileFormat (fun _ _ => Classical.propDecidable _) .empty ⟨fun _ l => l, 9⟩
      (.repeatBetween (.lit .b8 0) (.lit .b8 2) (.byte (ByteSet.fromIter [1]))) .empty new = .ok (d, st) ∧
    (∃ w, Decoder.parse ⟨[], fun _ => .panic⟩ 9 d .empty ⟨[1, 1], 0⟩ = .ok w ∧ w.value.2 = ⟨[1, 1], 2⟩) ∧
    (∃ w, Decoder.parse ⟨[], fun _ => .panic⟩ 9 d .empty ⟨[], 0⟩ = .ok w ∧ w.value.1 = .seq (.strict [])) :=
  ⟨_, _, rfl, ⟨_, rfl, rfl⟩, ⟨_, rfl, rfl⟩⟩

end

/-! ## Items with repetitions -/

/-- A repetition, or an optional part, is among the parts that the format consists of. -/
inductive Repeating : Format → Prop
  | repeat_ {f} : Repeating (.repeat_ f)
  | repeat1 {f} : Repeating (.repeat1 f)
  | repeatBetween {x y f} : Repeating (.repeatBetween x y f)
  | maybe {e f} : Repeating (.maybe e f)
  | variant {l f} : Repeating f → Repeating (.variant l f)
  | union {fs f} : f ∈ fs → Repeating f → Repeating (.union fs)
  | unionNondet {fs f} : f ∈ fs → Repeating f → Repeating (.unionNondet fs)
  | tuple {fs f} : f ∈ fs → Repeating f → Repeating (.tuple fs)
  | sequence {fs f} : f ∈ fs → Repeating f → Repeating (.sequence fs)
  | map {f e} : Repeating f → Repeating (.map f e)
  | where_ {f e b} : Repeating f → Repeating (.where_ f e b)
  | let_ {x e f} : Repeating f → Repeating (.let_ x e f)
  | letView {x f} : Repeating f → Repeating (.letView x f)
  | match_ {e p f bs} : (p, f) ∈ bs → Repeating f → Repeating (.match_ e bs)
  | dynamic {x e es f} : Repeating f → Repeating (.dynamic x e es f)
  | forEach {e l f} : Repeating f → Repeating (.forEach e l f)
  | monadSeq_left {f g} : Repeating f → Repeating (.monadSeq f g)
  | monadSeq_right {f g} : Repeating g → Repeating (.monadSeq f g)
  | letFormat_left {f x g} : Repeating f → Repeating (.letFormat f x g)
  | letFormat_right {f x g} : Repeating g → Repeating (.letFormat f x g)
  | enforce {f} : Repeating f → Repeating (.enforce f)
  | permit {f e} : Repeating f → Repeating (.permit f e)
  | hint {f} : Repeating f → Repeating (.hint f)
  | liftedSome {f} : Repeating f → Repeating (.liftedSome f)

section
variable {m : Module} {o : BuildOpts} {item : Nat → Run Bool}

theorem dep_any : ∀ {fs : List Format} {f : Format} {b : Bool}, f ∈ fs →
    (∀ b, Format.dependsOnNextWith m o item f = .ok b → b = true) → Format.anyDependsOnNext m o item fs = .ok b → b = true
  | g :: fs, f, b, hf, ih, h => by
    simp only [Format.anyDependsOnNext] at h
    obtain ⟨b1, h1, h⟩ := Outcome.bind_eq_ok.1 h
    cases b1 with
    | true => cases h; rfl
    | false =>
      rcases List.mem_cons.1 hf with rfl | hf
      · cases ih _ h1
      · exact dep_any hf ih h

theorem dep_union {all : List Format} : ∀ {fs : List Format} {f : Format} {b : Bool}, f ∈ fs →
    (∀ b, Format.dependsOnNextWith m o item f = .ok b → b = true) →
    Format.unionDependsOnNext m o item all fs = .ok b → b = true
  | g :: fs, f, b, hf, ih, h => by
    simp only [Format.unionDependsOnNext] at h
    obtain ⟨b1, h1, h⟩ := Outcome.bind_eq_ok.1 h
    cases b1 with
    | true => cases h; rfl
    | false =>
      rcases List.mem_cons.1 hf with rfl | hf
      · cases ih _ h1
      · exact dep_union hf ih h

theorem dep_branch : ∀ {bs : List (Pattern × Format)} {p : Pattern} {f : Format} {b : Bool}, (p, f) ∈ bs →
    (∀ b, Format.dependsOnNextWith m o item f = .ok b → b = true) →
    Format.branchDependsOnNext m o item bs = .ok b → b = true
  | (q, g) :: bs, p, f, b, hf, ih, h => by
    simp only [Format.branchDependsOnNext] at h
    obtain ⟨b1, h1, h⟩ := Outcome.bind_eq_ok.1 h
    cases b1 with
    | true => cases h; rfl
    | false =>
      rcases List.mem_cons.1 hf with hf | hf
      · cases hf; cases ih _ h1
      · exact dep_branch hf ih h

theorem dep_seq {f g : Format} {b : Bool} (h : (do
      let b ← Format.dependsOnNextWith m o item f
      if b then .ok true else Format.dependsOnNextWith m o item g : Run Bool) = .ok b)
    (ih : (∀ b, Format.dependsOnNextWith m o item f = .ok b → b = true) ∨
      ∀ b, Format.dependsOnNextWith m o item g = .ok b → b = true) : b = true := by
  obtain ⟨b1, h1, h⟩ := Outcome.bind_eq_ok.1 h
  cases b1 with
  | true => cases h; rfl
  | false =>
    rcases ih with ih | ih
    · cases ih _ h1
    · exact ih _ h

theorem dep_repeating {f : Format} (hf : Repeating f) : ∀ b, Format.dependsOnNextWith m o item f = .ok b → b = true := by
  induction hf with
  | repeat_ | repeat1 | repeatBetween | maybe => intro b h; simp only [Format.dependsOnNextWith] at h; cases h; rfl
  | union hm _ ih | unionNondet hm _ ih => intro b h; simp only [Format.dependsOnNextWith] at h; exact dep_union hm ih h
  | tuple hm _ ih | sequence hm _ ih => intro b h; simp only [Format.dependsOnNextWith] at h; exact dep_any hm ih h
  | match_ hm _ ih => intro b h; simp only [Format.dependsOnNextWith] at h; exact dep_branch hm ih h
  | monadSeq_left _ ih | letFormat_left _ ih =>
    intro b h; simp only [Format.dependsOnNextWith] at h; exact dep_seq h (.inl ih)
  | monadSeq_right _ ih | letFormat_right _ ih =>
    intro b h; simp only [Format.dependsOnNextWith] at h; exact dep_seq h (.inr ih)
  | variant _ ih | map _ ih | where_ _ ih | let_ _ ih | letView _ ih | dynamic _ ih | forEach _ ih | enforce _ ih
  | permit _ ih | hint _ ih | liftedSome _ ih => intro b h; simp only [Format.dependsOnNextWith] at h; exact ih b h

end

/-- An item that has a repetition or an optional part is compiled with regard to what follows: the call of the item leads
to a decoder that was compiled for the item and what follows the call. -/
theorem C12_item_next [DecidableEq Next] (m : Module) (o : BuildOpts) (level : Nat) (it : Item)
    (hi : m.items[level]? = some it) (hr : Repeating it.format) (args : List Expr) (views : List ViewExpr) (next : Next)
    (st st' : CompSt) (d : Decoder) (hd : compileFormat m o (.itemVar level args views) next st = .ok (d, st')) :
    ∃ n, d = .call n (it.args.zip args) (it.views.zip views) ∧ ((level, next), n) ∈ st'.map := by
  simp only [compileFormat] at hd
  obtain ⟨i, h1, hd⟩ := Outcome.bind_eq_ok.1 hd
  have h1 := Outcome.ofPanicky_eq_ok.1 h1
  have h1 : m.items[level]? = some i := Compiler.unwrap_eq_ok.1 h1
  rw [hi] at h1
  cases h1
  obtain ⟨dep, h2, hd⟩ := Outcome.bind_eq_ok.1 hd
  cases dep_repeating hr dep (Compiler.lift_eq_ok.1 h2)
  simp only [if_true] at hd
  cases hd
  refine ⟨_, rfl, ?_⟩
  unfold callIndex
  split
  · next n h => exact mapGet_mem h
  · exact List.mem_cons_self

/-- `(a b)?` is one. -/
example : Repeating (.tuple [.byte (ByteSet.fromIter [1]), .map (.repeat1 (.byte (ByteSet.fromIter [2]))) (.var "x")]) :=
  .tuple (List.mem_cons_of_mem _ List.mem_cons_self) (.map .repeat1)

end Doodle
