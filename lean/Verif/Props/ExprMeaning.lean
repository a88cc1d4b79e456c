import Verif.Spec.ExprMeaning
import Verif.Props.SeqKind
import Verif.Props.Prelude
import Verif.Props.Pattern
import Verif.Props.Search

/-!
C64: expressions compute what their operators say.  One theorem for each operator says, from the values of the operands,
exactly which value the expression gives, or that it gives none (the evaluator panics).
-/

namespace Doodle
open Num (BitWidth)

variable {δ : Type} {s : Scope δ}

/-! ## Wrappers -/

theorem bare_coerce : ∀ v : Value, Bare v v.coerceMapped
  | .mapped _ v => by simp only [Value.coerceMapped]; exact .mapped (bare_coerce v)
  | .branch _ v => by simp only [Value.coerceMapped]; exact .branch (bare_coerce v)
  | .permitOk v => by simp only [Value.coerceMapped]; exact .permitOk (bare_coerce v)
  | .bool _ | .num _ _ | .char _ | .numeric _ | .view _ | .phantom | .enumFromTo _ _ | .optNone | .optSome _ | .tuple _
  | .record _ | .variant _ _ | .seq _ | .permitErrNone | .permitErr _ => by
    simp only [Value.coerceMapped]
    exact .done (by intros; simp) (by intros; simp) (by intros; simp)

theorem Bare.eq {v w : Value} (h : Bare v w) : v.coerceMapped = w := by
  induction h with
  | mapped _ ih | branch _ ih | permitOk _ ih => simpa only [Value.coerceMapped] using ih
  | done h1 h2 h3 =>
    rename_i v
    cases v with
    | mapped o u => exact absurd rfl (h1 o u)
    | branch n u => exact absurd rfl (h2 n u)
    | permitOk u => exact absurd rfl (h3 u)
    | _ => rfl

theorem bare_iff {v w : Value} : Bare v w ↔ v.coerceMapped = w := ⟨Bare.eq, fun h => h ▸ bare_coerce v⟩

theorem coerce_idem (v : Value) : v.coerceMapped.coerceMapped = v.coerceMapped := by
  have : ∀ {v w}, Bare v w → w.coerceMapped = w := by
    intro v w h
    induction h with
    | mapped _ ih | branch _ ih | permitOk _ ih => exact ih
    | done h1 h2 h3 => exact (Bare.done h1 h2 h3).eq
  exact this (bare_coerce v)

/-- What an expression gives is what evaluation leads to, without the wrappers around it. -/
theorem C64_gives (x : Expr) (v : Value) : x.Gives s v ↔ ∃ v0, x.eval s = .ok v0 ∧ Bare v0 v := by
  simp only [Expr.Gives, bare_iff]

theorem Expr.Gives.coerce {x : Expr} {v : Value} (h : x.Gives s v) : v.coerceMapped = v := by
  obtain ⟨v0, _, rfl⟩ := h
  exact coerce_idem v0

theorem Expr.Gives.unique {x : Expr} {v w : Value} (h : x.Gives s v) (h' : x.Gives s w) : v = w := by
  obtain ⟨v0, h1, rfl⟩ := h
  obtain ⟨w0, h2, rfl⟩ := h'
  rw [h1] at h2
  cases h2
  rfl

/-- An expression gives at most one value. -/
theorem C64_deterministic (x : Expr) (v w : Value) (h : x.Gives s v) (h' : x.Gives s w) : v = w := h.unique h'

theorem gives_bind {x : Expr} {f : Value → Panicky Value} {v : Value} :
    (∃ v0, (do let u ← x.eval s; f u.coerceMapped) = .ok v0 ∧ v0.coerceMapped = v) ↔
      ∃ u, x.Gives s u ∧ ∃ v0, f u = .ok v0 ∧ v0.coerceMapped = v := by
  constructor
  · rintro ⟨v0, h, rfl⟩
    obtain ⟨u, h1, h2⟩ := Panicky.bind_eq_ok.1 h
    exact ⟨_, ⟨u, h1, rfl⟩, v0, h2, rfl⟩
  · rintro ⟨u, ⟨u0, h1, rfl⟩, v0, h2, rfl⟩
    exact ⟨v0, Panicky.bind_eq_ok.2 ⟨u0, h1, h2⟩, rfl⟩

theorem gives_bind2 {x y : Expr} {f : Value → Value → Panicky Value} {v : Value} :
    (∃ v0, (do let u ← x.eval s; let w ← y.eval s; f u.coerceMapped w.coerceMapped) = .ok v0 ∧ v0.coerceMapped = v) ↔
      ∃ u w, x.Gives s u ∧ y.Gives s w ∧ ∃ v0, f u w = .ok v0 ∧ v0.coerceMapped = v := by
  constructor
  · rintro ⟨v0, h, rfl⟩
    obtain ⟨u, h1, h⟩ := Panicky.bind_eq_ok.1 h
    obtain ⟨w, h2, h⟩ := Panicky.bind_eq_ok.1 h
    exact ⟨_, _, ⟨u, h1, rfl⟩, ⟨w, h2, rfl⟩, v0, h, rfl⟩
  · rintro ⟨u, w, ⟨u0, h1, rfl⟩, ⟨w0, h2, rfl⟩, v0, h, rfl⟩
    exact ⟨v0, Panicky.bind_eq_ok.2 ⟨u0, h1, Panicky.bind_eq_ok.2 ⟨w0, h2, h⟩⟩, rfl⟩

/-! ## Values built from values -/

/-- Literals. -/
theorem C64_literal (v : Value) :
    (∀ b, (Expr.bool b).Gives s v ↔ v = .bool b) ∧ (∀ w n, (Expr.lit w n).Gives s v ↔ v = .num (.fixed w) n) ∧
    (Expr.liftNone.Gives s v ↔ v = .optNone) := by
  refine ⟨fun b => ?_, fun w n => ?_, ?_⟩ <;> simp [Expr.Gives, Expr.eval, Value.coerceMapped, eq_comm]

/-- A variable gives the value bound to it. -/
theorem C64_var (x : String) (v : Value) : (Expr.var x).Gives s v ↔ ∃ v0, s.getValue x = some v0 ∧ Bare v0 v := by
  simp only [Expr.Gives, Expr.eval, bare_iff]
  cases s.getValue x with
  | none => simp [Panicky.unwrap]
  | some w => simp [Panicky.unwrap]

theorem evalValues_iff : ∀ {es : List Expr} {vs : List Value}, Expr.evalValues es s = .ok vs ↔ GivesAll s es vs
  | [], vs => by
    simp only [Expr.evalValues, GivesAll]
    constructor
    · intro h; cases h; exact ⟨rfl, by simp⟩
    · rintro ⟨h, _⟩
      rw [List.length_eq_zero_iff.1 h]
  | e :: es, vs => by
    simp only [Expr.evalValues, Panicky.bind_eq_ok]
    constructor
    · rintro ⟨v, h1, vs', h2, h⟩
      cases h
      obtain ⟨h3, h4⟩ := evalValues_iff.1 h2
      refine ⟨by simp [h3], fun i e' v' h5 h6 => ?_⟩
      cases i with
      | zero => simp at h5 h6; subst h5; subst h6; exact ⟨v, h1, rfl⟩
      | succ i => exact h4 i e' v' (by simpa using h5) (by simpa using h6)
    · rintro ⟨h1, h2⟩
      cases vs with
      | nil => simp at h1
      | cons v vs =>
        obtain ⟨v0, h3, rfl⟩ := h2 0 e v rfl rfl
        exact ⟨v0, h3, vs, evalValues_iff.2 ⟨by simpa using h1, fun i e' v' h5 h6 => h2 (i + 1) e' v' (by simpa using h5) (by simpa using h6)⟩, rfl⟩

/-- A tuple gives the values of its components. -/
theorem C64_tuple (es : List Expr) (v : Value) : (Expr.tuple es).Gives s v ↔ ∃ vs, GivesAll s es vs ∧ v = .tuple vs := by
  simp only [Expr.Gives, Expr.eval, Panicky.bind_eq_ok]
  constructor
  · rintro ⟨v0, ⟨vs, h, h'⟩, rfl⟩
    cases h'
    exact ⟨vs, evalValues_iff.1 h, rfl⟩
  · rintro ⟨vs, h, rfl⟩
    exact ⟨_, ⟨vs, evalValues_iff.2 h, rfl⟩, rfl⟩

/-- A sequence gives the values of its components. -/
theorem C64_seq (es : List Expr) (v : Value) : (Expr.seq es).Gives s v ↔ ∃ vs, GivesAll s es vs ∧ v = .seq (.strict vs) := by
  simp only [Expr.Gives, Expr.eval, Panicky.bind_eq_ok]
  constructor
  · rintro ⟨v0, ⟨vs, h, h'⟩, rfl⟩
    cases h'
    exact ⟨vs, evalValues_iff.1 h, rfl⟩
  · rintro ⟨vs, h, rfl⟩
    exact ⟨_, ⟨vs, evalValues_iff.2 h, rfl⟩, rfl⟩

theorem evalFields_iff : ∀ {es : List (String × Expr)} {vs : List (String × Value)}, Expr.evalFields es s = .ok vs ↔
    vs.length = es.length ∧ ∀ (i : Nat) l e k v, es[i]? = some (l, e) → vs[i]? = some (k, v) → k = l ∧ e.eval s = .ok v
  | [], vs => by
    simp only [Expr.evalFields]
    constructor
    · intro h; cases h; exact ⟨rfl, by simp⟩
    · rintro ⟨h, _⟩
      rw [List.length_eq_zero_iff.1 h]
  | (l, e) :: es, vs => by
    simp only [Expr.evalFields, Panicky.bind_eq_ok]
    constructor
    · rintro ⟨v, h1, vs', h2, h⟩
      cases h
      obtain ⟨h3, h4⟩ := evalFields_iff.1 h2
      refine ⟨by simp [h3], fun i l' e' k' v' h5 h6 => ?_⟩
      cases i with
      | zero =>
        simp at h5 h6
        obtain ⟨rfl, rfl⟩ := h5
        obtain ⟨rfl, rfl⟩ := h6
        exact ⟨rfl, h1⟩
      | succ i => exact h4 i l' e' k' v' (by simpa using h5) (by simpa using h6)
    · rintro ⟨h1, h2⟩
      cases vs with
      | nil => simp at h1
      | cons v vs =>
        obtain ⟨k, v⟩ := v
        obtain ⟨rfl, h3⟩ := h2 0 l e k v rfl rfl
        exact ⟨v, h3, vs, evalFields_iff.2 ⟨by simpa using h1, fun i l' e' k' v' h5 h6 =>
          h2 (i + 1) l' e' k' v' (by simpa using h5) (by simpa using h6)⟩, rfl⟩

/-- A record gives its labels with the values of its fields (wrappers included). -/
theorem C64_record (es : List (String × Expr)) (v : Value) : (Expr.record es).Gives s v ↔
    ∃ vs, v = .record vs ∧ vs.length = es.length ∧
      ∀ (i : Nat) l e k w, es[i]? = some (l, e) → vs[i]? = some (k, w) → k = l ∧ e.eval s = .ok w := by
  simp only [Expr.Gives, Expr.eval, Panicky.bind_eq_ok]
  constructor
  · rintro ⟨v0, ⟨vs, h, h'⟩, rfl⟩
    cases h'
    exact ⟨vs, rfl, evalFields_iff.1 h⟩
  · rintro ⟨vs, rfl, h⟩
    exact ⟨_, ⟨vs, evalFields_iff.2 h, rfl⟩, rfl⟩

/-- A component of a tuple; of a fallback value, nothing. -/
theorem C64_tupleProj (x : Expr) (i : Nat) (v : Value) : (Expr.tupleProj x i).Gives s v ↔
    (∃ vs w, x.Gives s (.tuple vs) ∧ vs[i]? = some w ∧ Bare w v) ∨
    ((x.Gives s .permitErrNone ∨ ∃ u, x.Gives s (.permitErr u)) ∧ v = .permitErrNone) := by
  have := gives_bind (s := s) (x := x) (f := fun u => u.tupleProj i) (v := v)
  simp only [Expr.Gives, Expr.eval] at this ⊢
  rw [this]
  constructor
  · rintro ⟨u, hu, v0, h, rfl⟩
    unfold Value.tupleProj at h
    split at h
    · next vs =>
      cases hi : vs[i]? with
      | none => rw [hi] at h; cases h
      | some w => rw [hi] at h; cases h; exact .inl ⟨vs, _, hu, hi, bare_coerce _⟩
    · cases h; exact .inr ⟨.inl hu, rfl⟩
    · cases h; exact .inr ⟨.inr ⟨_, hu⟩, rfl⟩
    · cases h
  · rintro (⟨vs, w, hu, hi, hb⟩ | ⟨hu | ⟨u, hu⟩, rfl⟩)
    · exact ⟨_, hu, w, by simp [Value.tupleProj, hi, Panicky.unwrap], hb.eq⟩
    · exact ⟨_, hu, _, rfl, rfl⟩
    · exact ⟨_, hu, _, rfl, rfl⟩

theorem find_first {fs : List (String × Value)} {l : String} {w : Value} :
    (fs.find? (fun f => l == f.1)).map (·.2) = some w ↔
      ∃ pre post, fs = pre ++ (l, w) :: post ∧ ∀ p ∈ pre, p.1 ≠ l := by
  rw [Option.map_eq_some_iff]
  constructor
  · rintro ⟨⟨k, w'⟩, h, rfl⟩
    obtain ⟨h1, pre, post, rfl, h2⟩ := List.find?_eq_some_iff_append.1 h
    have h1 : l = k := by simpa using h1
    subst h1
    exact ⟨pre, post, rfl, fun p hp he => by have := h2 p hp; simp [he] at this⟩
  · rintro ⟨pre, post, rfl, h⟩
    exact ⟨(l, w), List.find?_eq_some_iff_append.2 ⟨by simp, pre, post, rfl, fun p hp => by
      simpa using fun e : l = p.1 => h p hp e.symm⟩, rfl⟩

/-- The first field of a record with the label; of a fallback value, nothing. -/
theorem C64_recordProj (x : Expr) (l : String) (v : Value) : (Expr.recordProj x l).Gives s v ↔
    (∃ pre w post, x.Gives s (.record (pre ++ (l, w) :: post)) ∧ (∀ p ∈ pre, p.1 ≠ l) ∧ Bare w v) ∨
    ((x.Gives s .permitErrNone ∨ ∃ u, x.Gives s (.permitErr u)) ∧ v = .permitErrNone) := by
  have := gives_bind (s := s) (x := x) (f := fun u => u.recordProj l) (v := v)
  simp only [Expr.Gives, Expr.eval] at this ⊢
  rw [this]
  constructor
  · rintro ⟨u, hu, v0, h, rfl⟩
    unfold Value.recordProj at h
    split at h
    · next fs =>
      cases hi : (fs.find? (fun f => l == f.1)).map (·.2) with
      | none => rw [hi] at h; cases h
      | some w =>
        rw [hi] at h
        cases h
        obtain ⟨pre, post, rfl, h1⟩ := find_first.1 hi
        exact .inl ⟨pre, _, post, hu, h1, bare_coerce _⟩
    · cases h; exact .inr ⟨.inl hu, rfl⟩
    · cases h; exact .inr ⟨.inr ⟨_, hu⟩, rfl⟩
    · cases h
  · rintro (⟨pre, w, post, hu, h1, hb⟩ | ⟨hu | ⟨u, hu⟩, rfl⟩)
    · refine ⟨_, hu, w, ?_, hb.eq⟩
      simp only [Value.recordProj]
      rw [find_first.2 ⟨pre, post, rfl, h1⟩]
      rfl
    · exact ⟨_, hu, _, rfl, rfl⟩
    · exact ⟨_, hu, _, rfl, rfl⟩

/-- Variants and optional values. -/
theorem C64_wrap (x : Expr) (v : Value) :
    (∀ l, (Expr.variant l x).Gives s v ↔ ∃ u, x.Gives s u ∧ v = .variant l u) ∧
    ((Expr.liftSome x).Gives s v ↔ ∃ u, x.Gives s u ∧ v = .optSome u) := by
  constructor
  · intro l
    have := gives_bind (s := s) (x := x) (f := fun u => .ok (.variant l u)) (v := v)
    simp only [Expr.Gives, Expr.eval] at this ⊢
    rw [this]
    simp [Value.coerceMapped, eq_comm]
  · have := gives_bind (s := s) (x := x) (f := fun u => .ok (.optSome u)) (v := v)
    simp only [Expr.Gives, Expr.eval] at this ⊢
    rw [this]
    simp [Value.coerceMapped, eq_comm]

/-- The first branch whose pattern describes the value is taken, with the names that the pattern binds. -/
theorem C64_match (x : Expr) (bs : List (Pattern × Expr)) (v : Value) : (Expr.match_ x bs).Gives s v ↔
    ∃ u pre p e post names, x.eval s = .ok u ∧ bs = pre ++ (p, e) :: post ∧
      (∀ q ∈ pre, ∀ w c, Unwrapped u w → ¬ Describes q.1 w c) ∧ (∃ w, Unwrapped u w ∧ Describes p w names) ∧
      e.Gives (s.withBindings names) v := by
  simp only [Expr.Gives, Expr.eval, Panicky.bind_eq_ok]
  constructor
  · rintro ⟨v0, ⟨u, h1, h2⟩, rfl⟩
    obtain ⟨pre, p, e, post, names, w, h3, h4, h5, h6, rfl⟩ := (C24_first_match bs s u v0).1 h2
    exact ⟨u, pre, p, e, post, names, h1, h3, h4, h5, w, h6, (coerce_idem w).symm⟩
  · rintro ⟨u, pre, p, e, post, names, h1, h3, h4, h5, w, h6, rfl⟩
    exact ⟨_, ⟨u, h1, (C24_first_match bs s u _).2 ⟨pre, p, e, post, names, w, h3, h4, h5, h6, rfl⟩⟩, coerce_idem w⟩

/-- The body of a destructuring is evaluated with the names that the pattern binds. -/
theorem C64_destructure (x : Expr) (p : Pattern) (e : Expr) (v : Value) : (Expr.destructure x p e).Gives s v ↔
    ∃ u names, x.eval s = .ok u ∧ (∃ w, Unwrapped u w ∧ Describes p w names) ∧ e.Gives (s.withBindings names) v := by
  simp only [Expr.Gives, Expr.eval, Panicky.bind_eq_ok]
  constructor
  · rintro ⟨v0, ⟨u, h1, h2⟩, rfl⟩
    cases hm : u.matchesPat p with
    | none => rw [hm] at h2; cases h2
    | some names =>
      rw [hm] at h2
      obtain ⟨w, h3, h4⟩ := Panicky.bind_eq_ok.1 h2
      cases h4
      exact ⟨u, names, h1, (C24_matches_partial u p names).1 hm, w, h3, (coerce_idem w).symm⟩
  · rintro ⟨u, names, h1, h2, w, h3, rfl⟩
    refine ⟨w.coerceMapped, ⟨u, h1, ?_⟩, coerce_idem w⟩
    rw [(C24_matches_partial u p names).2 h2]
    exact Panicky.bind_eq_ok.2 ⟨w, h3, rfl⟩

/-- A function is not a value. -/
theorem C64_lambda (name : String) (e : Expr) (v : Value) : ¬ (Expr.lambda name e).Gives s v := by
  rintro ⟨v0, h, _⟩
  simp only [Expr.eval] at h
  cases h

/-! ## Numbers -/

theorem isInt_mk {k : UKind} {n : Nat} {v : Value} : Value.mkNum k n = .ok v ↔ IsInt v k n := by
  unfold Value.mkNum IsInt
  by_cases h : n < k.card
  · simp only [dif_pos h]
    constructor
    · intro e; cases e; exact ⟨h, rfl⟩
    · rintro ⟨_, rfl⟩; rfl
  · simp only [dif_neg h]
    constructor
    · intro e; cases e
    · rintro ⟨h', _⟩; exact absurd h' h

theorem IsInt.coerce {v : Value} {k : UKind} {n : Nat} (h : IsInt v k n) : v.coerceMapped = v := by
  obtain ⟨_, rfl⟩ := h
  rfl

theorem u32Card_eq : u32Card = 2 ^ 32 := rfl

theorem arithNum_iff {op : Arith} {k : UKind} {a b : Nat} {v : Value} :
    Value.arithNum op k a b = .ok v ↔ ∃ n, ArithIs op k a b n ∧ IsInt v k n := by
  cases op with
  | add => simp [Value.arithNum, ArithIs, isInt_mk]
  | mul => simp [Value.arithNum, ArithIs, isInt_mk]
  | sub =>
    simp only [Value.arithNum, ArithIs]
    by_cases h : b ≤ a
    · rw [if_pos h, isInt_mk]
      constructor
      · intro h'; exact ⟨a - b, by omega, h'⟩
      · rintro ⟨n, rfl, h'⟩; simpa using h'
    · rw [if_neg h]
      constructor
      · intro h'; cases h'
      · rintro ⟨n, rfl, _⟩; omega
  | div =>
    simp only [Value.arithNum, ArithIs]
    by_cases h : b = 0
    · rw [if_pos h]
      constructor
      · intro h'; cases h'
      · rintro ⟨n, ⟨h1, _⟩, _⟩; omega
    · rw [if_neg h, isInt_mk]
      constructor
      · intro h'; exact ⟨_, ⟨by omega, rfl⟩, h'⟩
      · rintro ⟨n, ⟨_, rfl⟩, h'⟩; exact h'
  | rem =>
    simp only [Value.arithNum, ArithIs]
    by_cases h : b = 0
    · rw [if_pos h]
      constructor
      · intro h'; cases h'
      · rintro ⟨n, ⟨h1, _⟩, _⟩; omega
    · rw [if_neg h, isInt_mk]
      constructor
      · intro h'; exact ⟨_, ⟨by omega, rfl⟩, h'⟩
      · rintro ⟨n, ⟨_, rfl⟩, h'⟩; exact h'
  | shl =>
    simp only [Value.arithNum, ArithIs, u32Card_eq, Nat.shiftLeft_eq]
    by_cases h : b % 2 ^ 32 < k.bits
    · rw [if_pos h, isInt_mk]
      constructor
      · intro h'; exact ⟨_, ⟨h, rfl⟩, h'⟩
      · rintro ⟨n, ⟨_, rfl⟩, h'⟩; exact h'
    · rw [if_neg h]
      constructor
      · intro h'; cases h'
      · rintro ⟨n, ⟨h1, _⟩, _⟩; exact absurd h1 h
  | shr =>
    simp only [Value.arithNum, ArithIs, u32Card_eq, Nat.shiftRight_eq_div_pow]
    by_cases h : b % 2 ^ 32 < k.bits
    · rw [if_pos h, isInt_mk]
      constructor
      · intro h'; exact ⟨_, ⟨h, rfl⟩, h'⟩
      · rintro ⟨n, ⟨_, rfl⟩, h'⟩; exact h'
    · rw [if_neg h]
      constructor
      · intro h'; cases h'
      · rintro ⟨n, ⟨h1, _⟩, _⟩; exact absurd h1 h
  | bitAnd =>
    simp only [Value.arithNum, ArithIs, isInt_mk]
    constructor
    · intro h'; exact ⟨_, fun i => Nat.testBit_and .., h'⟩
    · rintro ⟨n, h1, h'⟩
      have : n = a &&& b := Nat.eq_of_testBit_eq fun i => by rw [h1, Nat.testBit_and]
      rw [← this]; exact h'
  | bitOr =>
    simp only [Value.arithNum, ArithIs, isInt_mk]
    constructor
    · intro h'; exact ⟨_, fun i => Nat.testBit_or .., h'⟩
    · rintro ⟨n, h1, h'⟩
      have : n = a ||| b := Nat.eq_of_testBit_eq fun i => by rw [h1, Nat.testBit_or]
      rw [← this]; exact h'
  | boolOr | boolAnd =>
    simp only [Value.arithNum, ArithIs]
    constructor
    · intro h'; cases h'
    · rintro ⟨_, h, _⟩; exact h.elim

theorem gives_op2 {e x y : Expr} {f : Value → Value → Panicky Value} {v : Value} {P : Value → Value → Value → Prop}
    (he : e.eval s = do let u ← x.eval s; let w ← y.eval s; f u.coerceMapped w.coerceMapped)
    (hf : ∀ u w v, f u w = .ok v ↔ P u w v) (hP : ∀ u w v, P u w v → v.coerceMapped = v) :
    e.Gives s v ↔ ∃ u w, x.Gives s u ∧ y.Gives s w ∧ P u w v := by
  rw [Expr.Gives, he, gives_bind2]
  constructor
  · rintro ⟨u, w, h1, h2, v0, h3, rfl⟩
    have := (hf u w v0).1 h3
    exact ⟨u, w, h1, h2, by rw [hP u w v0 this]; exact this⟩
  · rintro ⟨u, w, h1, h2, h3⟩
    exact ⟨u, w, h1, h2, v, (hf u w v).2 h3, hP u w v h3⟩

theorem gives_op1 {e x : Expr} {f : Value → Panicky Value} {v : Value} {P : Value → Value → Prop}
    (he : e.eval s = do let u ← x.eval s; f u.coerceMapped) (hf : ∀ u v, f u = .ok v ↔ P u v) (hP : ∀ u v, P u v → v.coerceMapped = v) :
    e.Gives s v ↔ ∃ u, x.Gives s u ∧ P u v := by
  rw [Expr.Gives, he, gives_bind]
  constructor
  · rintro ⟨u, h1, v0, h3, rfl⟩
    have := (hf u v0).1 h3
    exact ⟨u, h1, by rw [hP u v0 this]; exact this⟩
  · rintro ⟨u, h1, h3⟩
    exact ⟨u, h1, v, (hf u v).2 h3, hP u v h3⟩

/-- Arithmetic: both operands are numbers of one kind, and the result, which must be a number of that kind, is the result
of the operation on numbers; for the logical operations, on truth values. -/
theorem C64_arith (op : Arith) (x y : Expr) (v : Value) : (Expr.arith op x y).Gives s v ↔
    ∃ u w, x.Gives s u ∧ y.Gives s w ∧
      ((∃ k a b n, IsInt u k a ∧ IsInt w k b ∧ ArithIs op k a b n ∧ IsInt v k n) ∨
        ∃ a b : Bool, u = .bool a ∧ w = .bool b ∧
          ((op = .boolOr ∧ v = .bool (a || b)) ∨ (op = .boolAnd ∧ v = .bool (a && b)))) := by
  refine gives_op2 (s := s) (v := v) (P := fun u w v => (∃ k a b n, IsInt u k a ∧ IsInt w k b ∧ ArithIs op k a b n ∧ IsInt v k n) ∨
            ∃ a b, u = Value.bool a ∧ w = Value.bool b ∧
                  (op = Arith.boolOr ∧ v = Value.bool (a || b) ∨ op = Arith.boolAnd ∧ v = Value.bool (a && b)))
    (e := .arith op x y) (x := x) (y := y) (f := Value.arith op) (by simp only [Expr.eval]) ?_ ?_
  · intro u w v
    constructor
    · intro h
      unfold Value.arith at h
      split at h
      · split at h
        · cases h; exact .inr ⟨_, _, rfl, rfl, .inl ⟨rfl, rfl⟩⟩
        · cases h
      · split at h
        · cases h; exact .inr ⟨_, _, rfl, rfl, .inr ⟨rfl, rfl⟩⟩
        · cases h
      · split at h
        · split at h
          · next k l k' r hk =>
            subst hk
            obtain ⟨n, h1, h2⟩ := arithNum_iff.1 h
            exact .inl ⟨k, _, _, n, ⟨l.2, rfl⟩, ⟨r.2, rfl⟩, h1, h2⟩
          · cases h
        · cases h
    · rintro (⟨k, a, b, n, ⟨ha, rfl⟩, ⟨hb, rfl⟩, h1, h2⟩ | ⟨a, b, rfl, rfl, ⟨rfl, rfl⟩ | ⟨rfl, rfl⟩⟩)
      · have := arithNum_iff.2 ⟨n, h1, h2⟩
        cases op <;> first | exact h1.elim | simpa [Value.arith] using this
      · rfl
      · rfl
  · rintro u w v (⟨k, a, b, n, _, _, _, h⟩ | ⟨a, b, _, _, ⟨_, rfl⟩ | ⟨_, rfl⟩⟩)
    · exact h.coerce
    · rfl
    · rfl

/-- Successor and predecessor, which must be numbers of the same kind; negation. -/
theorem C64_unary (op : UnaryOp) (x : Expr) (v : Value) : (Expr.unary op x).Gives s v ↔
    ∃ u, x.Gives s u ∧
      ((op = .intSucc ∧ ∃ k a, IsInt u k a ∧ IsInt v k (a + 1)) ∨
        (op = .intPred ∧ ∃ k a, IsInt u k (a + 1) ∧ IsInt v k a) ∨
        (op = .boolNot ∧ ∃ b, u = .bool b ∧ v = .bool (!b))) := by
  refine gives_op1 (s := s) (v := v) (P := fun u v => (op = UnaryOp.intSucc ∧ ∃ k a, IsInt u k a ∧ IsInt v k (a + 1)) ∨
          (op = UnaryOp.intPred ∧ ∃ k a, IsInt u k (a + 1) ∧ IsInt v k a) ∨
            op = UnaryOp.boolNot ∧ ∃ b, u = Value.bool b ∧ v = Value.bool !b)
    (e := .unary op x) (x := x) (f := Value.unary op) (by simp only [Expr.eval]) ?_ ?_
  · intro u v
    constructor
    · intro h
      unfold Value.unary at h
      split at h
      · split at h
        · cases h; exact .inr (.inr ⟨rfl, _, rfl, rfl⟩)
        · cases h
      · split at h
        · next k i => exact .inl ⟨rfl, k, _, ⟨i.2, rfl⟩, isInt_mk.1 h⟩
        · cases h
      · split at h
        · next k i =>
          split at h
          · next hi =>
            refine .inr (.inl ⟨rfl, k, i.val - 1, ?_, isInt_mk.1 h⟩)
            rw [Nat.sub_add_cancel hi]
            exact ⟨i.2, rfl⟩
          · cases h
        · cases h
    · rintro (⟨rfl, k, a, ⟨ha, rfl⟩, hv⟩ | ⟨rfl, k, a, ⟨ha, rfl⟩, hv⟩ | ⟨rfl, b, rfl, rfl⟩)
      · exact isInt_mk.2 hv
      · simp only [Value.unary, Nat.le_add_left, if_true, Nat.add_sub_cancel]
        exact isInt_mk.2 hv
      · rfl
  · rintro u v (⟨_, k, a, _, h⟩ | ⟨_, k, a, _, h⟩ | ⟨_, b, _, rfl⟩)
    · exact h.coerce
    · exact h.coerce
    · rfl

theorem rel_iff {r : IntRel} {a b : Int} : Value.rel r a b = true ↔ RelIs r a b := by
  cases r <;> simp [Value.rel, RelIs]

theorem standsFor_iff {c : Num.TypedConst} {w : BitWidth} {n : Nat} :
    c.getAsUnsized w = some n ↔ StandsFor c w ∧ c.val = n := by
  unfold Num.TypedConst.getAsUnsized StandsFor
  by_cases h1 : c.rep = .concrete ⟨false, w⟩
  · rw [if_pos h1]
    by_cases h2 : 0 ≤ c.val ∧ c.val < 2 ^ w.bits
    · have h3 : c.isRepresentable = true := by
        unfold Num.TypedConst.isRepresentable
        rw [h1]
        simp only [Num.NumRep.asBounds, Num.MachineRep.asBounds]
        cases w <;> simp [BitWidth.bits] at h2 ⊢ <;> omega
      rw [if_pos h3, if_pos h2]
      constructor
      · intro h; cases h; exact ⟨⟨.inl h1, h2⟩, by omega⟩
      · rintro ⟨_, h⟩; rw [h]; simp
    · rw [if_neg h2]
      constructor
      · intro h; split at h <;> cases h
      · rintro ⟨⟨_, h⟩, _⟩; exact absurd h h2
  · rw [if_neg h1]
    by_cases h3 : c.rep = .auto
    · rw [if_pos h3]
      by_cases h2 : 0 ≤ c.val ∧ c.val < 2 ^ w.bits
      · rw [if_pos h2]
        constructor
        · intro h; cases h; exact ⟨⟨.inr h3, h2⟩, by omega⟩
        · rintro ⟨_, h⟩; rw [h]; simp
      · rw [if_neg h2]
        constructor
        · intro h; cases h
        · rintro ⟨⟨_, h⟩, _⟩; exact absurd h h2
    · rw [if_neg h3]
      constructor
      · intro h; cases h
      · rintro ⟨⟨h | h, _⟩, _⟩
        · exact absurd h h1
        · exact absurd h h3

/-- Comparison of two numbers. -/
theorem C64_intRel (r : IntRel) (x y : Expr) (v : Value) : (Expr.intRel r x y).Gives s v ↔
    ∃ u w, x.Gives s u ∧ y.Gives s w ∧ ∃ (a b : Int) (t : Bool), Compared u w a b ∧ v = .bool t ∧ (t = true ↔ RelIs r a b) := by
  refine gives_op2 (s := s) (v := v) (P := fun u w v => ∃ a b t, Compared u w a b ∧ v = Value.bool t ∧ (t = true ↔ RelIs r a b))
    (e := .intRel r x y) (x := x) (y := y) (f := Value.intRel r) (by simp only [Expr.eval]) ?_ ?_
  · intro u w v
    constructor
    · intro h
      unfold Value.intRel at h
      split at h
      · next k l k' z =>
        split at h
        · next hk => subst hk; cases h; exact ⟨_, _, _, .num (ha := l.2) (hb := z.2), rfl, rel_iff⟩
        · cases h
      · cases h; exact ⟨_, _, _, .numeric, rfl, rel_iff⟩
      · next c w z =>
        split at h
        · next n hn =>
          cases h
          obtain ⟨h1, h2⟩ := standsFor_iff.1 hn
          exact ⟨_, _, _, .left (h := z.2) h1, rfl, by rw [h2]; exact rel_iff⟩
        · cases h
      · next w z c =>
        split at h
        · next n hn =>
          cases h
          obtain ⟨h1, h2⟩ := standsFor_iff.1 hn
          exact ⟨_, _, _, .right (h := z.2) h1, rfl, by rw [h2]; exact rel_iff⟩
        · cases h
      · cases h
    · rintro ⟨a, b, t, hc, rfl, ht⟩
      have ht : t = Value.rel r a b := by
        rw [Bool.eq_iff_iff, ht, rel_iff]
      subst ht
      cases hc with
      | num => simp [Value.intRel]
      | numeric => rfl
      | @left c w b h hs =>
        have : c.val = c.val.toNat := by have := hs.2.1; omega
        simp only [Value.intRel, standsFor_iff.2 ⟨hs, this⟩]
        rw [← this]
      | @right c w b h hs =>
        have : c.val = c.val.toNat := by have := hs.2.1; omega
        simp only [Value.intRel, standsFor_iff.2 ⟨hs, this⟩]
        rw [← this]
  · rintro u w v ⟨a, b, t, _, rfl, _⟩
    rfl

/-- Conversion to a number of `w` bits, in which it must fit. -/
theorem C64_asNum (w : BitWidth) (x : Expr) (v : Value) : (Expr.asNum w x).Gives s v ↔
    ∃ u, x.Gives s u ∧ ∃ k n, IsInt u k n ∧ IsInt v (.fixed w) n := by
  refine gives_op1 (s := s) (v := v) (P := fun u v => ∃ k n, IsInt u k n ∧ IsInt v (UKind.fixed w) n)
    (e := .asNum w x) (x := x) (f := Expr.castTo w) (by simp only [Expr.eval]) ?_ ?_
  · intro u v
    constructor
    · intro h
      unfold Expr.castTo at h
      split at h
      · next k n => exact ⟨k, _, ⟨n.2, rfl⟩, isInt_mk.1 h⟩
      · cases h
    · rintro ⟨k, n, ⟨_, rfl⟩, hv⟩
      exact isInt_mk.2 hv
  · rintro u v ⟨k, n, _, h⟩
    exact h.coerce

/-- Conversion of a number below 2^32 to the character with this code, or the replacement character if there is none. -/
theorem C64_asChar (x : Expr) (v : Value) : (Expr.asChar x).Gives s v ↔
    ∃ u, x.Gives s u ∧ ∃ k n c, IsInt u k n ∧ n < 2 ^ 32 ∧ v = .char c ∧
      (n.isValidChar → c.toNat = n) ∧ (¬ n.isValidChar → c.toNat = 0xFFFD) := by
  refine gives_op1 (s := s) (v := v) (P := fun u v => ∃ k n c, IsInt u k n ∧ n < 2 ^ 32 ∧ v = Value.char c ∧
        (n.isValidChar → c.toNat = n) ∧ (¬n.isValidChar → c.toNat = 65533))
    (e := .asChar x) (x := x) (f := Expr.castChar) (by simp only [Expr.eval]) ?_ ?_
  · intro u v
    have hc : ∀ n, (n.isValidChar → (Expr.charOfU32 n).toNat = n) ∧ (¬ n.isValidChar → (Expr.charOfU32 n).toNat = 0xFFFD) := by
      intro n
      unfold Expr.charOfU32
      constructor
      · intro h
        rw [dif_pos h]
        rfl
      · intro h
        rw [dif_neg h]
        rfl
    constructor
    · intro h
      unfold Expr.castChar at h
      split at h
      · next k n =>
        split at h
        · next hn => cases h; exact ⟨k, _, _, ⟨n.2, rfl⟩, hn, rfl, hc _⟩
        · cases h
      · cases h
    · rintro ⟨k, n, c, ⟨_, rfl⟩, hn, rfl, h1, h2⟩
      have : c = Expr.charOfU32 n := by
        apply Char.toNat_inj.1
        by_cases h : n.isValidChar
        · rw [h1 h, (hc n).1 h]
        · rw [h2 h, (hc n).2 h]
      simp only [Expr.castChar]
      rw [if_pos (by exact hn), this]
  · rintro u v ⟨k, n, c, _, _, rfl, _⟩
    rfl

theorem valueBE_eq (l : List UInt8) : valueBE l = fromBeBytes l := by
  unfold valueBE fromBeBytes
  congr
  funext a b
  omega

theorem u8List_iff : ∀ {vs : List Value} {bs : List UInt8}, Expr.u8List vs = some bs ↔
    vs.length = bs.length ∧ ∀ (i : Nat) v b, vs[i]? = some v → bs[i]? = some b → IsInt v (.fixed .b8) b.toNat
  | [], bs => by
    simp only [Expr.u8List]
    constructor
    · intro h; cases h; exact ⟨rfl, by simp⟩
    · rintro ⟨h, _⟩
      rw [List.length_eq_zero_iff.1 h.symm]
  | v :: vs, bs => by
    constructor
    · intro h
      unfold Expr.u8List at h
      split at h
      · next heq => cases heq
      · next n vs' heq =>
        cases heq
        obtain ⟨bs', h1, rfl⟩ := Option.map_eq_some_iff.1 h
        obtain ⟨h2, h3⟩ := u8List_iff.1 h1
        refine ⟨by simp [h2], fun i v b h4 h5 => ?_⟩
        cases i with
        | zero =>
          simp at h4 h5
          subst h4; subst h5
          have : (UInt8.ofNat n.val).toNat = n.val := by
            have := n.2
            simp only [UKind.card, UKind.bits, BitWidth.bits] at this
            simp [UInt8.toNat_ofNat]
            omega
          exact ⟨by rw [this]; exact n.2, by congr; exact Fin.ext this.symm⟩
        | succ i => exact h3 i v b (by simpa using h4) (by simpa using h5)
      · cases h
    · rintro ⟨h1, h2⟩
      cases bs with
      | nil => simp at h1
      | cons b bs =>
        obtain ⟨hb, rfl⟩ := h2 0 v b rfl rfl
        have := u8List_iff.2 ⟨by simpa using h1, fun i v b h4 h5 => h2 (i + 1) v b (by simpa using h4) (by simpa using h5)⟩
        simp only [Expr.u8List, this]
        simp

/-- The number of `w` bits that as many bytes stand for, most significant byte first or last. -/
theorem C64_fromBytes (w : BitWidth) (be : Bool) (x : Expr) (v : Value) : (Expr.fromBytes w be x).Gives s v ↔
    ∃ vs bs, x.Gives s (.tuple vs) ∧ vs.length = bs.length ∧
      (∀ (i : Nat) u b, vs[i]? = some u → bs[i]? = some b → IsInt u (.fixed .b8) b.toNat) ∧ bs.length * 8 = w.bits ∧
      IsInt v (.fixed w) (valueBE (if be then bs else bs.reverse)) := by
  have hval : ∀ bs, (if be then fromBeBytes bs else Prelude.fromLeBytes bs) = valueBE (if be then bs else bs.reverse) := by
    intro bs
    cases be with
    | true => exact (valueBE_eq _).symm
    | false => exact (Prelude.C45_endian bs).2.trans (valueBE_eq _).symm
  have := gives_op1 (s := s) (e := .fromBytes w be x) (x := x) (f := Expr.wordOf w be) (v := v)
    (P := fun u v => ∃ vs bs, u = .tuple vs ∧ vs.length = bs.length ∧
      (∀ (i : Nat) u b, vs[i]? = some u → bs[i]? = some b → IsInt u (.fixed .b8) b.toNat) ∧ bs.length * 8 = w.bits ∧
      IsInt v (.fixed w) (valueBE (if be then bs else bs.reverse))) (by simp only [Expr.eval]) ?_ ?_
  · rw [this]
    constructor
    · rintro ⟨u, hu, vs, bs, rfl, h⟩
      exact ⟨vs, bs, hu, h⟩
    · rintro ⟨vs, bs, hu, h⟩
      exact ⟨_, hu, vs, bs, rfl, h⟩
  · intro u v
    constructor
    · intro h
      unfold Expr.wordOf at h
      split at h
      · next vs =>
        split at h
        · next bs hbs =>
          split at h
          · next hl =>
            obtain ⟨h1, h2⟩ := u8List_iff.1 hbs
            refine ⟨vs, bs, rfl, h1, h2, hl, ?_⟩
            rw [← hval]
            exact isInt_mk.1 h
          · cases h
        · cases h
      · cases h
    · rintro ⟨vs, bs, rfl, h1, h2, h3, h4⟩
      simp only [Expr.wordOf, u8List_iff.2 ⟨h1, h2⟩, h3, if_true]
      rw [hval]
      exact isInt_mk.2 h4
  · rintro u v ⟨_, _, _, _, _, _, h⟩
    exact h.coerce

/-! ## Sequences -/

theorem items_iff {u : Value} {l : List Value} : Items u l ↔ ∃ q, u.getSequence = some q ∧ q.items = l := by
  constructor
  · intro h
    cases h with
    | strict => exact ⟨_, rfl, rfl⟩
    | dup => exact ⟨_, rfl, rfl⟩
    | @range a b l h1 h2 =>
      refine ⟨_, rfl, ?_⟩
      apply List.ext_getElem?
      intro i
      simp only [Value.ValueSeq.items, List.getElem?_map]
      by_cases hi : i < b.val - a.val
      · obtain ⟨_, hv⟩ := h2 i (l[i]'(by omega)) (List.getElem?_eq_getElem _)
        rw [List.getElem?_eq_getElem (by simpa using hi), List.getElem?_eq_getElem (by omega), hv]
        simp only [List.getElem_range', Option.map_some, Nat.one_mul]
        refine congrArg (fun n => some (Value.num UKind.usize n)) (Fin.ext ?_)
        show (a.val + i) % usizeCard = a.val + i
        exact Nat.mod_eq_of_lt (by have := b.2; omega)
      · rw [List.getElem?_eq_none (by simpa using hi), List.getElem?_eq_none (by omega)]
        rfl
  · rintro ⟨q, h, rfl⟩
    cases u with
    | seq q' =>
      cases h
      cases q' with
      | strict l => exact .strict
      | dup n v => exact .dup
    | enumFromTo a b =>
      cases h
      refine .range (by simp [Value.ValueSeq.items]) fun i v hi => ?_
      simp only [Value.ValueSeq.items, List.getElem?_map, Option.map_eq_some_iff] at hi
      obtain ⟨n, hn, rfl⟩ := hi
      obtain ⟨hlt, rfl⟩ := List.getElem?_eq_some_iff.1 hn
      simp only [List.length_range'] at hlt
      have hb := b.2
      refine ⟨by show a.val + i < usizeCard; omega, ?_⟩
      simp only [List.getElem_range', Nat.one_mul, Value.ofUsize]
      refine congrArg (Value.num UKind.usize) (Fin.ext ?_)
      show (a.val + i) % usizeCard = a.val + i
      exact Nat.mod_eq_of_lt (by omega)
    | _ => cases h

theorem isIndex_iff {v : Value} {i : Nat} : v.unwrapUsize = .ok i ↔ IsIndex v i := by
  constructor
  · intro h
    unfold Value.unwrapUsize at h
    split at h
    · cases h; exact .num
    · next c =>
      unfold Num.TypedConst.asUsize at h
      split at h
      · next hc =>
        simp only [Panicky.unwrap, Panicky.ok.injEq] at h
        subst h
        have : usizeCard = 2 ^ 64 := rfl
        exact .numeric (by omega) (by omega)
      · cases h
    · cases h
  · intro h
    cases h with
    | num => rfl
    | @numeric c n h1 h2 =>
      have : usizeCard = 2 ^ 64 := rfl
      simp only [Value.unwrapUsize, Num.TypedConst.asUsize]
      rw [if_pos (by omega)]
      simp only [Panicky.unwrap, Panicky.ok.injEq]
      omega

theorem applies_iff {f : Expr} {a v : Value} : f.evalLambda s a = .ok v ↔ Applies s f a v := by
  unfold Applies
  constructor
  · intro h
    cases f with
    | lambda name body =>
      simp only [Expr.evalLambda, Panicky.bind_eq_ok] at h
      obtain ⟨v0, h1, h2⟩ := h
      cases h2
      exact ⟨_, _, rfl, v0, h1, rfl⟩
    | _ => simp only [Expr.evalLambda] at h; cases h
  · rintro ⟨name, body, rfl, v0, h1, rfl⟩
    simp only [Expr.evalLambda, Panicky.bind_eq_ok]
    exact ⟨v0, h1, rfl⟩

/-- The length of a sequence, as a 32-bit number: a longer sequence is counted modulo 2^32. -/
theorem C64_seqLength (x : Expr) (v : Value) : (Expr.seqLength x).Gives s v ↔
    ∃ u l, x.Gives s u ∧ Items u l ∧ IsInt v (.fixed .b32) (l.length % 2 ^ 32) := by
  have := gives_op1 (s := s) (e := .seqLength x) (x := x) (f := Expr.lengthOf) (v := v)
    (P := fun u v => ∃ l, Items u l ∧ IsInt v (.fixed .b32) (l.length % 2 ^ 32)) (by simp only [Expr.eval]) ?_ ?_
  · rw [this]
    constructor
    · rintro ⟨u, hu, l, h⟩; exact ⟨u, l, hu, h⟩
    · rintro ⟨u, l, hu, h⟩; exact ⟨u, hu, l, h⟩
  · intro u v
    have hlen : ∀ q : Value.ValueSeq, q.len = q.items.length := by
      intro q
      cases q with
      | vals q => cases q <;> simp [Value.ValueSeq.len, Value.ValueSeq.items, SeqKind.len, SeqKind.iter]
      | range a b => simp [Value.ValueSeq.len, Value.ValueSeq.items]
    unfold Expr.lengthOf
    constructor
    · intro h
      cases hq : u.getSequence with
      | none => rw [hq] at h; cases h
      | some q =>
        rw [hq] at h
        exact ⟨_, items_iff.2 ⟨q, hq, rfl⟩, by rw [← hlen]; exact isInt_mk.1 h⟩
    · rintro ⟨l, h1, h2⟩
      obtain ⟨q, hq, rfl⟩ := items_iff.1 h1
      rw [hq, ← hlen] at *
      exact isInt_mk.2 h2
  · rintro u v ⟨_, _, h⟩
    exact h.coerce

/-- Indexing: the item at that place, which must exist. -/
theorem C64_seqIx (x i : Expr) (v : Value) : (Expr.seqIx x i).Gives s v ↔
    ∃ u w l n, x.Gives s u ∧ i.Gives s w ∧ Items u l ∧ IsIndex w n ∧ ∃ e, l[n]? = some e ∧ Bare e v := by
  have hix : ∀ (u : Value) (n : Nat) (e : Value), Expr.indexOf u n = .ok e ↔ ∃ l, Items u l ∧ l[n]? = some e := by
    intro u n e
    unfold Expr.indexOf
    constructor
    · intro h
      cases hq : u.getSequence with
      | none => rw [hq] at h; cases h
      | some q =>
        rw [hq] at h
        refine ⟨_, items_iff.2 ⟨q, hq, rfl⟩, ?_⟩
        cases q with
        | vals q => exact ((SeqKind.C27_index q q.iter ((SeqKind.C27_denotes_unique _ _).2 rfl) n).1 e).1 h
        | range a b =>
          dsimp only at h
          split at h
          · next hn =>
            cases h
            simp only [Value.ValueSeq.items, List.getElem?_map]
            rw [List.getElem?_eq_getElem (by simp; omega)]
            simp
          · cases h
    · rintro ⟨l, h1, h2⟩
      obtain ⟨q, hq, rfl⟩ := items_iff.1 h1
      rw [hq]
      cases q with
      | vals q => exact ((SeqKind.C27_index q q.iter ((SeqKind.C27_denotes_unique _ _).2 rfl) n).1 e).2 h2
      | range a b =>
        simp only [Value.ValueSeq.items, List.getElem?_map, Option.map_eq_some_iff] at h2
        obtain ⟨m, hm, rfl⟩ := h2
        obtain ⟨hlt, rfl⟩ := List.getElem?_eq_some_iff.1 hm
        simp only [List.length_range'] at hlt
        dsimp only
        rw [if_pos (by omega)]
        simp
  simp only [Expr.Gives, Expr.eval, Panicky.bind_eq_ok]
  constructor
  · rintro ⟨e, ⟨u, h1, w, h2, n, h3, h4⟩, rfl⟩
    obtain ⟨l, h5, h6⟩ := (hix _ _ _).1 h4
    exact ⟨_, _, l, n, ⟨u, h1, rfl⟩, ⟨w, h2, rfl⟩, h5, isIndex_iff.1 h3, e, h6, bare_coerce e⟩
  · rintro ⟨_, _, l, n, ⟨u, h1, rfl⟩, ⟨w, h2, rfl⟩, h5, h3, e, h6, h7⟩
    exact ⟨e, ⟨u, h1, w, h2, n, isIndex_iff.2 h3, (hix _ _ _).2 ⟨l, h5, h6⟩⟩, h7.eq⟩

/-- The three operands of the two operators that take a stretch of a sequence. -/
theorem gives_stretch {e x a n : Expr} {f : Value → Nat → Nat → Panicky Value} {v : Value} {P : Value → Nat → Nat → Prop}
    (he : e.eval s = do
      let u ← x.eval s
      let i ← a.eval s
      let i ← i.coerceMapped.unwrapUsize
      let j ← n.eval s
      let j ← j.coerceMapped.unwrapUsize
      f u.coerceMapped i j)
    (hf : ∀ u i j, f u i j = .ok v ↔ P u i j) (hc : ∀ u i j v, f u i j = .ok v → v.coerceMapped = v) :
    e.Gives s v ↔ ∃ u w z i j, x.Gives s u ∧ a.Gives s w ∧ n.Gives s z ∧ IsIndex w i ∧ IsIndex z j ∧ P u i j := by
  simp only [Expr.Gives, he, Panicky.bind_eq_ok]
  constructor
  · rintro ⟨v0, ⟨u, h1, w, h2, i, h3, z, h4, j, h5, h6⟩, rfl⟩
    exact ⟨_, _, _, i, j, ⟨u, h1, rfl⟩, ⟨w, h2, rfl⟩, ⟨z, h4, rfl⟩, isIndex_iff.1 h3, isIndex_iff.1 h5,
      (hf _ _ _).1 (by rw [hc _ _ _ _ h6]; exact h6)⟩
  · rintro ⟨_, _, _, i, j, ⟨u, h1, rfl⟩, ⟨w, h2, rfl⟩, ⟨z, h4, rfl⟩, h3, h5, h6⟩
    have h6 := (hf _ _ _).2 h6
    exact ⟨v, ⟨u, h1, w, h2, i, isIndex_iff.2 h3, z, h4, j, isIndex_iff.2 h5, h6⟩, hc _ _ _ _ h6⟩

/-- A stretch of a sequence: the items from that place on, as many as asked for.  All of them must exist; of a range of
numbers, also one more (see `C27_subRange_refuted`). -/
theorem C64_subSeq (x a n : Expr) (v : Value) (h : (Expr.subSeq x a n).Gives s v) :
    ∃ u w z l i j, x.Gives s u ∧ a.Gives s w ∧ n.Gives s z ∧ Items u l ∧ IsIndex w i ∧ IsIndex z j ∧
      i + j ≤ l.length ∧ Items v ((l.drop i).take j) := by
  have := (gives_stretch (s := s) (e := .subSeq x a n) (x := x) (a := a) (n := n) (f := Expr.subSeqOf) (v := v)
    (P := fun u i j => Expr.subSeqOf u i j = .ok v) (by simp only [Expr.eval]) (fun _ _ _ => Iff.rfl) ?_).1 h
  · obtain ⟨u, w, z, i, j, h1, h2, h3, h4, h5, h6⟩ := this
    unfold Expr.subSeqOf at h6
    cases hq : u.getSequence with
    | none => rw [hq] at h6; cases h6
    | some q =>
      rw [hq] at h6
      refine ⟨u, w, z, _, i, j, h1, h2, h3, items_iff.2 ⟨q, hq, rfl⟩, h4, h5, ?_⟩
      cases q with
      | vals q =>
        obtain ⟨r, hr, h7⟩ := Panicky.bind_eq_ok.1 h6
        cases h7
        obtain ⟨c1, c2⟩ := SeqKind.C27_subSeq q q.iter ((SeqKind.C27_denotes_unique _ _).2 rfl) i j
        by_cases hle : i + j ≤ q.iter.length
        · obtain ⟨t, ht, hd⟩ := c1 hle
          rw [hr] at ht
          cases ht
          exact ⟨hle, items_iff.2 ⟨_, rfl, ((SeqKind.C27_denotes_unique _ _).1 hd).symm⟩⟩
        · rw [c2 (by omega)] at hr
          cases hr
      | range p q =>
        simp only [Panicky.bind_eq_ok] at h6
        obtain ⟨r, hr, y, hy, z', hz, h7⟩ := h6
        cases h7
        obtain ⟨c1, c2⟩ := C27_subRange_partial p.val q.val i j
        by_cases hlt : i + j < q.val - p.val
        · rw [c1 hlt] at hr
          cases hr
          unfold Expr.toUsize at hy hz
          have := q.2
          rw [dif_pos (by omega)] at hy hz
          cases hy; cases hz
          refine ⟨by simp [Value.ValueSeq.items]; omega, items_iff.2 ⟨_, rfl, ?_⟩⟩
          simp only [Value.ValueSeq.items, ← List.map_drop, ← List.map_take]
          congr 1
          apply List.ext_getElem?
          intro k
          rw [List.getElem?_take]
          by_cases hk : k < j
          · rw [if_pos hk, List.getElem?_drop, List.getElem?_eq_getElem (by simp; omega),
              List.getElem?_eq_getElem (by simp; omega)]
            simp; omega
          · rw [if_neg hk, List.getElem?_eq_none (by simp; omega)]
        · rw [c2 (by omega)] at hr
          cases hr
  · intro u i j v hv
    unfold Expr.subSeqOf at hv
    split at hv
    · obtain ⟨r, _, h'⟩ := Panicky.bind_eq_ok.1 hv; cases h'; rfl
    · simp only [Panicky.bind_eq_ok] at hv
      obtain ⟨r, _, y, _, z, _, h'⟩ := hv
      cases h'; rfl
    · cases hv

/-- A stretch that lies inside a sequence can be taken. -/
theorem C64_subSeq_defined (x a n : Expr) (u w z : Value) (l : List Value) (i j : Nat) (hx : x.Gives s u) (ha : a.Gives s w)
    (hn : n.Gives s z) (hl : Items u l) (hi : IsIndex w i) (hj : IsIndex z j)
    (hle : i + j < l.length ∨ i + j = l.length ∧ ∃ q, u = .seq q) : ∃ v, (Expr.subSeq x a n).Gives s v := by
  obtain ⟨u0, h1, rfl⟩ := hx
  obtain ⟨w0, h2, rfl⟩ := ha
  obtain ⟨z0, h3, rfl⟩ := hn
  obtain ⟨q, hq, rfl⟩ := items_iff.1 hl
  have : ∃ v, Expr.subSeqOf u0.coerceMapped i j = .ok v := by
    unfold Expr.subSeqOf
    rw [hq]
    cases q with
    | vals q =>
      obtain ⟨t, ht, _⟩ := (SeqKind.C27_subSeq q q.iter ((SeqKind.C27_denotes_unique _ _).2 rfl) i j).1
        (by simp only [Value.ValueSeq.items] at hle; omega)
      exact ⟨_, by dsimp only; rw [ht]; rfl⟩
    | range p q =>
      have hlt : i + j < q.val - p.val := by
        rcases hle with h | ⟨_, q', h⟩
        · simpa [Value.ValueSeq.items] using h
        · rw [h] at hq; cases hq
      have := q.2
      refine ⟨.enumFromTo ⟨p.val + i, by omega⟩ ⟨p.val + i + j, by omega⟩, ?_⟩
      dsimp only
      rw [(C27_subRange_partial p.val q.val i j).1 hlt]
      show (do let x ← Expr.toUsize (p.val + i); let y ← Expr.toUsize (p.val + i + j); Panicky.ok (Value.enumFromTo x y)) = _
      unfold Expr.toUsize
      rw [dif_pos (by omega), dif_pos (by omega)]
      rfl
  obtain ⟨v, hv⟩ := this
  refine ⟨v.coerceMapped, v, ?_, rfl⟩
  simp only [Expr.eval, Panicky.bind_eq_ok]
  exact ⟨u0, h1, w0, h2, i, isIndex_iff.2 hi, z0, h3, j, isIndex_iff.2 hj, hv⟩

theorem copies_iff {l : List Value} {out : List Value} {start : Nat} : ∀ {n : Nat} {vs : List Value},
    CopiesFrom (vs.length + start) n (l ++ vs) out ↔
      Prelude.inflateSeqLoop (.strict l) start vs vs.length n = .ok (vs ++ out) := by
  intro n
  induction n generalizing out with
  | zero =>
    intro vs
    simp only [Prelude.inflateSeqLoop]
    constructor
    · intro h; cases h; simp
    · intro h
      have : out = [] := by simpa using h
      subst this
      exact .nil
  | succ n ih =>
    intro vs
    have hstep : Prelude.inflateSeqLoop (.strict l) start vs vs.length (n + 1) =
        match (l ++ vs)[vs.length + start]? with
        | some x => Prelude.inflateSeqLoop (.strict l) start (vs ++ [x]) (vs ++ [x]).length n
        | none => .panic := by
      simp only [Prelude.inflateSeqLoop, SeqKind.index, SeqKind.get]
      by_cases hlt : vs.length + start < l.length
      · rw [if_pos (show _ < (SeqKind.strict l).len from hlt), List.getElem?_append_left hlt, List.getElem?_eq_getElem hlt]
        simp [Panicky.unwrap]
      · rw [if_neg (show ¬ _ < (SeqKind.strict l).len from hlt), List.getElem?_append_right (by omega),
          show vs.length + start - (SeqKind.strict l).len = vs.length + start - l.length from rfl]
        cases vs[vs.length + start - l.length]? with
        | none => rfl
        | some x => simp
    rw [hstep]
    constructor
    · intro h
      cases h with
      | @cons _ _ _ v out h1 h2 =>
        rw [h1]
        have : CopiesFrom ((vs ++ [v]).length + start) n (l ++ (vs ++ [v])) out := by
          rw [← List.append_assoc, List.length_append, List.length_singleton,
            show vs.length + 1 + start = vs.length + start + 1 by omega]
          exact h2
        rw [show vs ++ v :: out = vs ++ [v] ++ out by simp]
        exact ih.1 this
    · intro h
      cases h1 : (l ++ vs)[vs.length + start]? with
      | none => rw [h1] at h; cases h
      | some v =>
        rw [h1] at h
        dsimp only at h
        have hpre : ∀ (n : Nat) (vs : List Value) (i : Nat) (r : List Value),
            Prelude.inflateSeqLoop (.strict l) start vs i n = .ok r → ∃ o, r = vs ++ o := by
          intro n
          induction n with
          | zero => intro vs i r h; simp only [Prelude.inflateSeqLoop] at h; cases h; exact ⟨[], by simp⟩
          | succ n ih =>
            intro vs i r h
            simp only [Prelude.inflateSeqLoop] at h
            split at h
            · split at h
              · obtain ⟨o, rfl⟩ := ih _ _ _ h; exact ⟨_, List.append_assoc ..⟩
              · cases h
            · split at h
              · obtain ⟨o, rfl⟩ := ih _ _ _ h; exact ⟨_, List.append_assoc ..⟩
              · cases h
        obtain ⟨o, ho⟩ := hpre _ _ _ _ h
        have : out = v :: o := by simpa using ho
        subst this
        rw [show vs ++ v :: o = vs ++ [v] ++ o by simp] at h
        have := ih.2 h
        rw [← List.append_assoc, List.length_append, List.length_singleton,
            show vs.length + 1 + start = vs.length + start + 1 by omega] at this
        exact .cons h1 this

theorem inflateSeqLoop_iter (q : SeqKind Value) (start : Nat) : ∀ (n : Nat) (vs : List Value) (i : Nat),
    Prelude.inflateSeqLoop q start vs i n = Prelude.inflateSeqLoop (.strict q.iter) start vs i n := by
  intro n
  induction n with
  | zero => intros; rfl
  | succ n ih =>
    intro vs i
    have h1 : q.len = (SeqKind.strict q.iter).len := by cases q <;> simp [SeqKind.len, SeqKind.iter]
    have h2 : ∀ i, q.index i = (SeqKind.strict q.iter).index i := by
      intro i
      unfold SeqKind.index
      rw [SeqKind.C27_get q q.iter ((SeqKind.C27_denotes_unique _ _).2 rfl)]
      rfl
    simp only [Prelude.inflateSeqLoop, h1, h2, ih]

theorem inflateRangeLoop_iter (a len start : Nat) : ∀ (n : Nat) (vs : List Value) (i : Nat), i = vs.length →
    Prelude.inflateRangeLoop Value.ofUsize len start vs ((List.range' a len).drop (i + start)) i n =
      Prelude.inflateSeqLoop (.strict ((List.range' a len).map Value.ofUsize)) start vs i n := by
  intro n
  induction n with
  | zero => intros; simp only [Prelude.inflateRangeLoop, Prelude.inflateSeqLoop]
  | succ n ih =>
    intro vs i hi
    have hlen : (SeqKind.strict ((List.range' a len).map Value.ofUsize)).len = len := by simp [SeqKind.len]
    by_cases hlt : i + start < len
    · rw [List.drop_eq_getElem_cons (by simpa using hlt)]
      simp only [Prelude.inflateRangeLoop, Prelude.inflateSeqLoop, hlen]
      rw [if_pos hlt]
      have : (SeqKind.strict ((List.range' a len).map Value.ofUsize)).index (i + start) =
          .ok (Value.ofUsize ((List.range' a len)[i + start]'(by simpa using hlt))) := by
        simp only [SeqKind.index, SeqKind.get, List.getElem?_map]
        rw [List.getElem?_eq_getElem (by simpa using hlt)]
        rfl
      rw [this]
      dsimp only
      rw [← ih _ (i + 1) (by simp [hi]), show i + start + 1 = i + 1 + start by omega]
    · rw [List.drop_of_length_le (by simp; omega)]
      simp only [Prelude.inflateRangeLoop, Prelude.inflateSeqLoop, hlen]
      rw [if_neg hlt, if_neg hlt]
      cases hx : vs[i + start - len]? with
      | none => rfl
      | some x =>
        dsimp only
        rw [← ih _ (i + 1) (by simp [hi]), List.drop_of_length_le (by simp; omega)]

/-- Copying from a sequence to its end: the items from that place on, one at a time, where items already copied can be
copied again.  The result is what was added. -/
theorem C64_subSeqInflate (x a n : Expr) (v : Value) : (Expr.subSeqInflate x a n).Gives s v ↔
    ∃ u w z i j, x.Gives s u ∧ a.Gives s w ∧ n.Gives s z ∧ IsIndex w i ∧ IsIndex z j ∧
      ∃ l out, Items u l ∧ CopiesFrom i j l out ∧ v = .seq (.strict out) := by
  have hq : ∀ q : Value.ValueSeq, ∀ i j r, (match q with
      | .vals q => Prelude.inflateSeq q i j
      | .range a b => Prelude.inflateRange Value.ofUsize a.val b.val i j) = .ok r ↔ CopiesFrom i j q.items r := by
    intro q i j r
    have := copies_iff (l := q.items) (out := r) (start := i) (n := j) (vs := [])
    simp only [List.length_nil, Nat.zero_add, List.append_nil, List.nil_append] at this
    rw [this]
    cases q with
    | vals q => dsimp only; rw [Prelude.inflateSeq, inflateSeqLoop_iter]; rfl
    | range a b =>
      dsimp only
      have h := inflateRangeLoop_iter a.val (b.val - a.val) i j [] 0 rfl
      rw [Nat.zero_add] at h
      rw [Prelude.inflateRange, h]
      rfl
  have hf : ∀ u i j v, Expr.inflateOf u i j = .ok v ↔ ∃ l out, Items u l ∧ CopiesFrom i j l out ∧ v = .seq (.strict out) := by
    intro u i j v
    unfold Expr.inflateOf
    constructor
    · intro h
      cases hs : u.getSequence with
      | none => rw [hs] at h; cases h
      | some q =>
        rw [hs] at h
        cases q with
        | vals q =>
          obtain ⟨r, h1, h2⟩ := Panicky.bind_eq_ok.1 h
          cases h2
          exact ⟨_, r, items_iff.2 ⟨_, hs, rfl⟩, (hq (.vals q) i j r).1 h1, rfl⟩
        | range p q =>
          obtain ⟨r, h1, h2⟩ := Panicky.bind_eq_ok.1 h
          cases h2
          exact ⟨_, r, items_iff.2 ⟨_, hs, rfl⟩, (hq (.range p q) i j r).1 h1, rfl⟩
    · rintro ⟨l, out, h1, h2, rfl⟩
      obtain ⟨q, hs, rfl⟩ := items_iff.1 h1
      have := (hq q i j out).2 h2
      rw [hs]
      cases q with
      | vals q => exact Panicky.bind_eq_ok.2 ⟨_, this, rfl⟩
      | range p q => exact Panicky.bind_eq_ok.2 ⟨_, this, rfl⟩
  exact gives_stretch (s := s) (e := .subSeqInflate x a n) (x := x) (a := a) (n := n) (f := Expr.inflateOf) (v := v)
    (P := fun u i j => ∃ l out, Items u l ∧ CopiesFrom i j l out ∧ v = .seq (.strict out)) (by simp only [Expr.eval])
    (fun u i j => hf u i j v) (fun u i j v h => by obtain ⟨_, _, _, _, rfl⟩ := (hf u i j v).1 h; rfl)

/-- Appending: the items of the one and then of the other. -/
theorem C64_append (x y : Expr) (v : Value) (h : (Expr.append x y).Gives s v) :
    ∃ u w l l', x.Gives s u ∧ y.Gives s w ∧ Items u l ∧ Items w l' ∧ Items v (l ++ l') := by
  simp only [Expr.Gives, Expr.eval, Panicky.bind_eq_ok] at h
  obtain ⟨v0, ⟨u, h1, w, h2, h3⟩, rfl⟩ := h
  refine ⟨u.coerceMapped, w.coerceMapped, ?_⟩
  unfold Expr.appendOf at h3
  cases hu : u.coerceMapped.getSequence with
  | none => rw [hu] at h3; cases h3
  | some p =>
    cases hw : w.coerceMapped.getSequence with
    | none => rw [hu, hw] at h3; cases h3
    | some q =>
      rw [hu, hw] at h3
      dsimp only at h3
      refine ⟨_, _, ⟨u, h1, rfl⟩, ⟨w, h2, rfl⟩, items_iff.2 ⟨p, hu, rfl⟩, items_iff.2 ⟨q, hw, rfl⟩, ?_⟩
      have hemp : ∀ q : Value.ValueSeq, q.isEmpty = true → q.items = [] := by
        intro q hq
        cases q with
        | vals q => exact (SeqKind.C27_isEmpty q q.iter ((SeqKind.C27_denotes_unique _ _).2 rfl)).1 hq
        | range a b =>
          simp only [Value.ValueSeq.isEmpty, Bool.not_eq_true', decide_eq_false_iff_not] at hq
          simp only [Value.ValueSeq.items]
          rw [show b.val - a.val = 0 by omega]
          rfl
      split at h3
      · next he =>
        cases h3
        rw [hemp p he, List.nil_append, coerce_idem]
        exact items_iff.2 ⟨q, hw, rfl⟩
      · split at h3
        · next he =>
          cases h3
          rw [hemp q he, List.append_nil, coerce_idem]
          exact items_iff.2 ⟨p, hu, rfl⟩
        · obtain ⟨r, h4, h5⟩ := Panicky.bind_eq_ok.1 h3
          cases h5
          cases p with
          | vals p =>
            cases q with
            | vals q =>
              cases h4
              exact items_iff.2 ⟨_, rfl, ((SeqKind.C27_denotes_unique _ _).1
                (SeqKind.C27_append p q _ _ ((SeqKind.C27_denotes_unique _ _).2 rfl) ((SeqKind.C27_denotes_unique _ _).2 rfl))).symm⟩
            | range a b => cases h4
          | range a b => cases h4

/-- Two sequences can be appended, unless neither is empty and one is a range of numbers. -/
theorem C64_append_defined (x y : Expr) (u w : Value) (l l' : List Value) (hx : x.Gives s u) (hy : y.Gives s w)
    (hl : Items u l) (hl' : Items w l') :
    (∃ v, (Expr.append x y).Gives s v) ↔ l = [] ∨ l' = [] ∨ (∃ q, u = .seq q) ∧ ∃ q, w = .seq q := by
  obtain ⟨u0, h1, rfl⟩ := hx
  obtain ⟨w0, h2, rfl⟩ := hy
  obtain ⟨p, hu, rfl⟩ := items_iff.1 hl
  obtain ⟨q, hw, rfl⟩ := items_iff.1 hl'
  have hemp : ∀ q : Value.ValueSeq, q.isEmpty = true ↔ q.items = [] := by
    intro q
    cases q with
    | vals q => exact SeqKind.C27_isEmpty q q.iter ((SeqKind.C27_denotes_unique _ _).2 rfl)
    | range a b =>
      simp only [Value.ValueSeq.isEmpty, Bool.not_eq_true', decide_eq_false_iff_not, Value.ValueSeq.items, List.map_eq_nil_iff,
        List.range'_eq_nil_iff]
      omega
  have hgives : (∃ v, (Expr.append x y).Gives s v) ↔ ∃ v, Expr.appendOf u0.coerceMapped w0.coerceMapped = .ok v := by
    simp only [Expr.Gives, Expr.eval, Panicky.bind_eq_ok]
    constructor
    · rintro ⟨v, v0, ⟨u, h3, w, h4, h5⟩, _⟩
      rw [h1] at h3; rw [h2] at h4
      cases h3; cases h4
      exact ⟨_, h5⟩
    · rintro ⟨v, hv⟩
      exact ⟨_, v, ⟨u0, h1, w0, h2, hv⟩, rfl⟩
  rw [hgives, ← hemp, ← hemp]
  unfold Expr.appendOf
  rw [hu, hw]
  dsimp only
  have hseq : ∀ (u : Value) q, u.getSequence = some q → ((∃ r, u = .seq r) ↔ ∃ r, q = .vals r) := by
    intro u q h
    cases u with
    | seq r => cases h; exact ⟨fun _ => ⟨_, rfl⟩, fun _ => ⟨_, rfl⟩⟩
    | enumFromTo a b => cases h; exact ⟨(fun ⟨_, h⟩ => nomatch h), (fun ⟨_, h⟩ => nomatch h)⟩
    | _ => cases h
  rw [hseq _ _ hu, hseq _ _ hw]
  by_cases e1 : p.isEmpty = true
  · rw [if_pos e1]
    exact ⟨fun _ => .inl e1, fun _ => ⟨_, rfl⟩⟩
  · rw [if_neg e1]
    by_cases e2 : q.isEmpty = true
    · rw [if_pos e2]
      exact ⟨fun _ => .inr (.inl e2), fun _ => ⟨_, rfl⟩⟩
    · rw [if_neg e2]
      constructor
      · rintro ⟨v, hv⟩
        obtain ⟨r, h4, _⟩ := Panicky.bind_eq_ok.1 hv
        cases p with
        | vals p =>
          cases q with
          | vals q => exact .inr (.inr ⟨⟨_, rfl⟩, _, rfl⟩)
          | range a b => cases h4
        | range a b => cases h4
      · rintro (h | h | ⟨⟨p', rfl⟩, q', rfl⟩)
        · exact absurd h e1
        · exact absurd h e2
        · exact ⟨_, rfl⟩

/-! ## Functions over sequences -/

theorem flatMapLoop_iff {f : Expr} : ∀ {xs vs r : List Value},
    Expr.flatMapLoop (fun a => f.evalLambda s a) vs xs = .ok r ↔ ∃ m, Maps s f xs m ∧ r = vs ++ m
  | [], vs, r => by
    simp only [Expr.flatMapLoop, Panicky.ok.injEq]
    constructor
    · rintro rfl; exact ⟨[], .nil, by simp⟩
    · rintro ⟨m, h, rfl⟩; cases h; simp
  | x :: xs, vs, r => by
    simp only [Expr.flatMapLoop, Panicky.bind_eq_ok]
    constructor
    · rintro ⟨v, h1, h2⟩
      cases hq : v.getSequence with
      | none => rw [hq] at h2; cases h2
      | some q =>
        rw [hq] at h2
        obtain ⟨m, h3, rfl⟩ := flatMapLoop_iff.1 h2
        exact ⟨_, .cons (applies_iff.1 h1) (items_iff.2 ⟨q, hq, rfl⟩) h3, by simp⟩
    · rintro ⟨m, h, rfl⟩
      cases h with
      | cons h1 h2 h3 =>
        obtain ⟨q, hq, rfl⟩ := items_iff.1 h2
        refine ⟨_, applies_iff.2 h1, ?_⟩
        rw [hq]
        exact flatMapLoop_iff.2 ⟨_, h3, by simp⟩

/-- Flat-map: the function is applied to the items one after the other, and the items of its results put together. -/
theorem C64_flatMap (f x : Expr) (v : Value) : (Expr.flatMap f x).Gives s v ↔
    ∃ u l r, x.Gives s u ∧ Items u l ∧ Maps s f l r ∧ v = .seq (.strict r) := by
  simp only [Expr.Gives, Expr.eval, Panicky.bind_eq_ok]
  constructor
  · rintro ⟨v0, ⟨u, h1, h2⟩, rfl⟩
    cases hq : u.coerceMapped.getSequence with
    | none => rw [hq] at h2; cases h2
    | some q =>
      rw [hq] at h2
      obtain ⟨r, h3, h4⟩ := Panicky.bind_eq_ok.1 h2
      cases h4
      obtain ⟨m, h5, rfl⟩ := flatMapLoop_iff.1 h3
      exact ⟨_, _, _, ⟨u, h1, rfl⟩, items_iff.2 ⟨q, hq, rfl⟩, h5, rfl⟩
  · rintro ⟨_, l, r, ⟨u, h1, rfl⟩, h2, h3, rfl⟩
    obtain ⟨q, hq, rfl⟩ := items_iff.1 h2
    refine ⟨.seq (.strict r), ⟨u, h1, ?_⟩, rfl⟩
    rw [hq]
    exact Panicky.bind_eq_ok.2 ⟨r, flatMapLoop_iff.2 ⟨r, h3, rfl⟩, rfl⟩

theorem items_seq {q : SeqKind Value} {l : List Value} : Items (.seq q) l ↔ l = q.iter := by
  rw [items_iff]
  constructor
  · rintro ⟨_, h, rfl⟩; cases h; rfl
  · rintro rfl; exact ⟨_, rfl, rfl⟩

theorem flatMapAccumLoop_iff {f : Expr} : ∀ {xs : List Value} {a : Value} {vs r : List Value},
    Expr.flatMapAccumLoop (fun a => f.evalLambda s a) a vs xs = .ok r ↔ ∃ m, AccumMaps s f a xs m ∧ r = vs ++ m
  | [], a, vs, r => by
    simp only [Expr.flatMapAccumLoop, Panicky.ok.injEq]
    constructor
    · rintro rfl; exact ⟨[], .nil, by simp⟩
    · rintro ⟨m, h, rfl⟩; cases h; simp
  | x :: xs, a, vs, r => by
    simp only [Expr.flatMapAccumLoop, Panicky.bind_eq_ok]
    constructor
    · rintro ⟨v, h1, h2⟩
      split at h2
      · obtain ⟨m, h3, rfl⟩ := flatMapAccumLoop_iff.1 h2
        exact ⟨_, .cons (applies_iff.1 h1) (items_seq.2 rfl) h3, by simp⟩
      · cases h2
    · rintro ⟨m, h, rfl⟩
      cases h with
      | cons h1 h2 h3 =>
        rw [items_seq.1 h2]
        refine ⟨_, applies_iff.2 h1, ?_⟩
        exact flatMapAccumLoop_iff.2 ⟨_, h3, by simp⟩

theorem flatMapListLoop_iff {f : Expr} : ∀ {xs vs r : List Value},
    Expr.flatMapListLoop (fun a => f.evalLambda s a) vs xs = .ok r ↔ ListMaps s f vs xs r
  | [], vs, r => by
    simp only [Expr.flatMapListLoop, Panicky.ok.injEq]
    constructor
    · rintro rfl; exact .nil
    · intro h; cases h; rfl
  | x :: xs, vs, r => by
    simp only [Expr.flatMapListLoop, Panicky.bind_eq_ok]
    constructor
    · rintro ⟨v, h1, h2⟩
      split at h2
      · exact .cons (applies_iff.1 h1) (items_seq.2 rfl) (flatMapListLoop_iff.1 h2)
      · cases h2
    · intro h
      cases h with
      | cons h1 h2 h3 =>
        rw [items_seq.1 h2] at h3
        exact ⟨_, applies_iff.2 h1, flatMapListLoop_iff.2 h3⟩

theorem leftFoldLoop_iff {f : Expr} : ∀ {xs : List Value} {a r : Value},
    Expr.leftFoldLoop (fun a => f.evalLambda s a) a xs = .ok r ↔ Folds s f a xs r
  | [], a, r => by
    simp only [Expr.leftFoldLoop, Panicky.ok.injEq]
    constructor
    · rintro rfl; exact .nil
    · intro h; cases h; rfl
  | x :: xs, a, r => by
    simp only [Expr.leftFoldLoop, Panicky.bind_eq_ok]
    constructor
    · rintro ⟨v, h1, h2⟩
      exact .cons (applies_iff.1 h1) (leftFoldLoop_iff.1 h2)
    · intro h
      cases h with
      | cons h1 h2 => exact ⟨_, applies_iff.2 h1, leftFoldLoop_iff.2 h2⟩

theorem needSeq_iff {v : Value} {q : SeqKind Value} : Expr.needSeq v = .ok q ↔ v = .seq q := by
  cases v <;> simp [Expr.needSeq]

/-- Flat-map with accumulator.  The items must be those of a sequence, not of a range of numbers. -/
theorem C64_flatMapAccum (f a x : Expr) (t : ValueType) (v : Value) : (Expr.flatMapAccum f a t x).Gives s v ↔
    ∃ q l c r, x.Gives s (.seq q) ∧ Items (.seq q) l ∧ a.Gives s c ∧ AccumMaps s f c l r ∧ v = .seq (.strict r) := by
  simp only [Expr.Gives, Expr.eval, Panicky.bind_eq_ok, needSeq_iff, items_seq]
  constructor
  · rintro ⟨v0, ⟨u, h1, q, h2, c, h3, r, h4, h5⟩, rfl⟩
    cases h5
    obtain ⟨m, h5, rfl⟩ := flatMapAccumLoop_iff.1 h4
    exact ⟨q, _, _, _, ⟨u, h1, h2⟩, rfl, ⟨c, h3, rfl⟩, h5, rfl⟩
  · rintro ⟨q, _, _, r, ⟨u, h1, h2⟩, rfl, ⟨c, h3, rfl⟩, h5, rfl⟩
    exact ⟨_, ⟨u, h1, q, h2, c, h3, r, flatMapAccumLoop_iff.2 ⟨r, h5, rfl⟩, rfl⟩, rfl⟩

/-- Flat-map of a function that sees the results so far. -/
theorem C64_flatMapList (f x : Expr) (t : ValueType) (v : Value) : (Expr.flatMapList f t x).Gives s v ↔
    ∃ q l r, x.Gives s (.seq q) ∧ Items (.seq q) l ∧ ListMaps s f [] l r ∧ v = .seq (.strict r) := by
  simp only [Expr.Gives, Expr.eval, Panicky.bind_eq_ok, needSeq_iff, items_seq]
  constructor
  · rintro ⟨v0, ⟨u, h1, q, h2, r, h4, h5⟩, rfl⟩
    cases h5
    exact ⟨q, _, _, ⟨u, h1, h2⟩, rfl, flatMapListLoop_iff.1 h4, rfl⟩
  · rintro ⟨q, _, r, ⟨u, h1, h2⟩, rfl, h5, rfl⟩
    exact ⟨_, ⟨u, h1, q, h2, r, flatMapListLoop_iff.2 h5, rfl⟩, rfl⟩

/-- Left fold. -/
theorem C64_leftFold (f a x : Expr) (t : ValueType) (v : Value) : (Expr.leftFold f a t x).Gives s v ↔
    ∃ q l c, x.Gives s (.seq q) ∧ Items (.seq q) l ∧ a.Gives s c ∧ ∃ r, Folds s f c l r ∧ Bare r v := by
  simp only [Expr.Gives, Expr.eval, Panicky.bind_eq_ok, needSeq_iff, items_seq, bare_iff]
  constructor
  · rintro ⟨v0, ⟨u, h1, q, h2, c, h3, h4⟩, rfl⟩
    exact ⟨q, _, _, ⟨u, h1, h2⟩, rfl, ⟨c, h3, rfl⟩, _, leftFoldLoop_iff.1 h4, rfl⟩
  · rintro ⟨q, _, _, ⟨u, h1, h2⟩, rfl, ⟨c, h3, rfl⟩, r, h5, rfl⟩
    exact ⟨r, ⟨u, h1, q, h2, c, h3, leftFoldLoop_iff.2 h5⟩, rfl⟩

/-- Repetition of a value, a range of numbers, and numeric expressions. -/
theorem C64_dup (n x : Expr) (v : Value) : (Expr.dup n x).Gives s v ↔
    ∃ w i u, n.Gives s w ∧ IsIndex w i ∧ x.Gives s u ∧ v = .seq (.dup i u) := by
  simp only [Expr.Gives, Expr.eval, Panicky.bind_eq_ok, isIndex_iff]
  constructor
  · rintro ⟨v0, ⟨w, h1, i, h2, u, h3, h4⟩, rfl⟩
    cases h4
    exact ⟨_, i, _, ⟨w, h1, rfl⟩, h2, ⟨u, h3, rfl⟩, rfl⟩
  · rintro ⟨_, i, _, ⟨w, h1, rfl⟩, h2, ⟨u, h3, rfl⟩, rfl⟩
    exact ⟨_, ⟨w, h1, i, h2, u, h3, rfl⟩, rfl⟩

/-- A range of numbers. -/
theorem C64_enumFromTo (x y : Expr) (v : Value) : (Expr.enumFromTo x y).Gives s v ↔
    ∃ u w, ∃ i j : Fin usizeCard, x.Gives s u ∧ y.Gives s w ∧ IsIndex u i ∧ IsIndex w j ∧ v = .enumFromTo i j := by
  have hu : ∀ n i, Expr.toUsize n = .ok i ↔ n = i.val := by
    intro n i
    unfold Expr.toUsize
    constructor
    · intro h
      split at h
      · cases h; rfl
      · cases h
    · rintro rfl
      rw [dif_pos i.2]
  simp only [Expr.Gives, Expr.eval, Panicky.bind_eq_ok, isIndex_iff, hu]
  constructor
  · rintro ⟨v0, ⟨u, h1, i, h2, w, h3, j, h4, i', rfl, j', rfl, h⟩, rfl⟩
    cases h
    exact ⟨_, _, _, _, ⟨u, h1, rfl⟩, ⟨w, h3, rfl⟩, h2, h4, rfl⟩
  · rintro ⟨_, _, i, j, ⟨u, h1, rfl⟩, ⟨w, h3, rfl⟩, h2, h4, rfl⟩
    exact ⟨_, ⟨u, h1, _, h2, w, h3, _, h4, i, rfl, j, rfl, rfl⟩, rfl⟩

/-- A numeric expression gives the constant it evaluates to (what this is, C33 to C35 say). -/
theorem C64_numeric (n : Num.Expr) (v : Value) : (Expr.numeric n).Gives s v ↔
    ∃ c, n.eval s.numLookup = .ok c ∧ v = .numeric c := by
  simp only [Expr.Gives, Expr.eval, Expr.numericResult]
  constructor
  · rintro ⟨v0, h, rfl⟩
    split at h
    · next c hc => cases h; exact ⟨c, hc, rfl⟩
    · cases h
  · rintro ⟨c, h, rfl⟩
    exact ⟨_, by rw [h], rfl⟩

/-! ## Searching -/

theorem eqKey_iff {q k : Value} {b : Bool} : q.eqKey k = .ok b ↔ ∃ w a c, IsInt q (.fixed w) a ∧ IsInt k (.fixed w) c ∧ (b = true ↔ a = c) := by
  constructor
  · intro h
    unfold Value.eqKey at h
    split at h
    · next w a w' c =>
      split at h
      · next hw =>
        subst hw
        cases h
        exact ⟨w, a.val, c.val, ⟨a.2, rfl⟩, ⟨c.2, rfl⟩, by simp⟩
      · cases h
    · cases h
  · rintro ⟨w, a, c, ⟨_, rfl⟩, ⟨_, rfl⟩, h⟩
    simp only [Value.eqKey, if_true, Panicky.ok.injEq]
    cases b <;> simp_all

theorem unsorted_iff {f : Expr} {q : Value} : ∀ {xs : List Value} {i : Nat} {r : Option Nat},
    findIndexByKeyUnsorted (fun k => q.eqKey k) (fun a => f.evalLambda s a) xs i = .ok r ↔
      (∃ j x, r = some (i + j) ∧ xs[j]? = some x ∧ KeyIs s f q x True ∧
        ∀ (k : Nat) y, k < j → xs[k]? = some y → KeyIs s f q y False) ∨
      (r = none ∧ ∀ (k : Nat) y, xs[k]? = some y → KeyIs s f q y False)
  | [], i, r => by
    simp only [findIndexByKeyUnsorted, Panicky.ok.injEq]
    constructor
    · rintro rfl; exact .inr ⟨rfl, by simp⟩
    · rintro (⟨j, x, _, h, _⟩ | ⟨rfl, _⟩)
      · simp at h
      · rfl
  | x :: xs, i, r => by
    have ih := unsorted_iff (f := f) (q := q) (xs := xs) (i := i + 1) (r := r)
    simp only [findIndexByKeyUnsorted]
    constructor
    · intro h
      cases hk : f.evalLambda s x with
      | panic => rw [hk] at h; cases h
      | ok k =>
        rw [hk] at h
        dsimp only at h
        cases hb : q.eqKey k with
        | panic => rw [hb] at h; cases h
        | ok b =>
          rw [hb] at h
          obtain ⟨w, a, c, h1, h2, h3⟩ := eqKey_iff.1 hb
          have hkey : ∀ p : Prop, (p ↔ b = true) → KeyIs s f q x p := fun p hp =>
            ⟨k, w, a, c, applies_iff.1 hk, h1, h2, hp.trans h3⟩
          cases b with
          | true =>
            cases h
            exact .inl ⟨0, x, rfl, rfl, hkey _ (by simp), fun k y hk => absurd hk (Nat.not_lt_zero _)⟩
          | false =>
            rcases ih.1 h with ⟨j, y, h4, h5, h6, h7⟩ | ⟨h4, h5⟩
            · refine .inl ⟨j + 1, y, by rw [h4]; congr 1; omega, by simpa using h5, h6, fun k z hk hz => ?_⟩
              cases k with
              | zero => simp at hz; subst hz; exact hkey _ (by simp)
              | succ k => exact h7 k z (by omega) (by simpa using hz)
            · refine .inr ⟨h4, fun k z hz => ?_⟩
              cases k with
              | zero => simp at hz; subst hz; exact hkey _ (by simp)
              | succ k => exact h5 k z (by simpa using hz)
    · intro h
      have hkey : ∀ (p : Prop) (b : Bool), (b = true ↔ p) → KeyIs s f q x p → ∃ k, f.evalLambda s x = .ok k ∧ q.eqKey k = .ok b := by
        rintro p b hp ⟨k, w, a, c, h1, h2, h3, h4⟩
        exact ⟨k, applies_iff.2 h1, eqKey_iff.2 ⟨w, a, c, h2, h3, hp.trans h4⟩⟩
      rcases h with ⟨j, y, h4, h5, h6, h7⟩ | ⟨h4, h5⟩
      · cases j with
        | zero =>
          simp at h5; subst h5
          obtain ⟨k, h1, h2⟩ := hkey True true (by simp) h6
          rw [h1]; dsimp only; rw [h2, h4]; rfl
        | succ j =>
          obtain ⟨k, h1, h2⟩ := hkey False false (by simp) (h7 0 x (by omega) rfl)
          rw [h1]; dsimp only; rw [h2]
          exact ih.2 (.inl ⟨j, y, by rw [h4]; congr 1; omega, by simpa using h5, h6, fun k z hk hz => h7 (k + 1) z (by omega) (by simpa using hz)⟩)
      · obtain ⟨k, h1, h2⟩ := hkey False false (by simp) (h5 0 x rfl)
        rw [h1]; dsimp only; rw [h2]
        exact ih.2 (.inr ⟨h4, fun k z hz => h5 (k + 1) z (by simpa using hz)⟩)

/-- Searching a sequence from the front: the first item whose key is the given one, if there is one. -/
theorem C64_findByKey (f q x : Expr) (v : Value) : (Expr.findByKey false f q x).Gives s v ↔
    ∃ sq l k, x.Gives s (.seq sq) ∧ Items (.seq sq) l ∧ q.Gives s k ∧
      ((∃ i : Nat, ∃ e, l[i]? = some e ∧ KeyIs s f k e True ∧ (∀ (j : Nat) d, j < i → l[j]? = some d → KeyIs s f k d False) ∧
          v = .optSome e) ∨
        ((∀ e ∈ l, KeyIs s f k e False) ∧ v = .optNone)) := by
  have hidx : ∀ (sq : SeqKind Value) i e, sq.index i = .ok e ↔ sq.iter[i]? = some e := fun sq i e =>
    (SeqKind.C27_index sq sq.iter ((SeqKind.C27_denotes_unique _ _).2 rfl) i).1 e
  simp only [Expr.Gives, Expr.eval, Panicky.bind_eq_ok, needSeq_iff, items_seq, Expr.findByKeyOf, Bool.false_eq_true, if_false]
  constructor
  · rintro ⟨v0, ⟨u, h1, sq, h2, k, h3, r, h4, h5⟩, rfl⟩
    refine ⟨sq, _, _, ⟨u, h1, h2⟩, rfl, ⟨k, h3, rfl⟩, ?_⟩
    rcases unsorted_iff.1 h4 with ⟨j, e, rfl, h6, h7, h8⟩ | ⟨rfl, h6⟩
    · simp only [Nat.zero_add, Panicky.bind_eq_ok] at h5
      obtain ⟨e', h9, h10⟩ := h5
      cases h10
      rw [hidx, h6] at h9
      cases h9
      exact .inl ⟨j, e, h6, h7, h8, rfl⟩
    · cases h5
      refine .inr ⟨fun e he => ?_, rfl⟩
      obtain ⟨i, hi⟩ := List.getElem?_of_mem he
      exact h6 i e hi
  · rintro ⟨sq, _, _, ⟨u, h1, h2⟩, rfl, ⟨k, h3, rfl⟩, h⟩
    rcases h with ⟨i, e, h6, h7, h8, rfl⟩ | ⟨h6, rfl⟩
    · refine ⟨.optSome e, ⟨u, h1, sq, h2, k, h3, some i, unsorted_iff.2 (.inl ⟨i, e, by simp, h6, h7, h8⟩), ?_⟩, rfl⟩
      exact Panicky.bind_eq_ok.2 ⟨e, (hidx _ _ _).2 h6, rfl⟩
    · exact ⟨_, ⟨u, h1, sq, h2, k, h3, none, unsorted_iff.2 (.inr ⟨rfl, fun i e hi => h6 e (List.mem_of_getElem? hi)⟩), rfl⟩, rfl⟩

theorem searchLoop_congr {V W : Type} {c : V → Panicky Ordering} {g : Nat → Panicky V} {c' : W → Panicky Ordering} {g' : Nat → Panicky W}
    (h : ∀ i, (g i = .panic ∧ g' i = .panic) ∨ ∃ v w, g i = .ok v ∧ g' i = .ok w ∧ c v = c' w) :
    ∀ fuel lo hi, searchLoop c g fuel lo hi = searchLoop c' g' fuel lo hi := by
  intro fuel
  induction fuel with
  | zero => intros; rfl
  | succ fuel ih =>
    intro lo hi
    simp only [searchLoop]
    rcases h ((lo + hi) / 2) with ⟨h1, h2⟩ | ⟨v, w, h1, h2, h3⟩
    · rw [h1, h2]
    · rw [h1, h2]
      simp only [h3, ih]

theorem sorted_congr {V W : Type} {c : V → Panicky Ordering} {g : Nat → Panicky V} {c' : W → Panicky Ordering} {g' : Nat → Panicky W}
    (h : ∀ i, (g i = .panic ∧ g' i = .panic) ∨ ∃ v w, g i = .ok v ∧ g' i = .ok w ∧ c v = c' w) (len : Nat) :
    findIndexByKeySorted c g len = findIndexByKeySorted c' g' len := by
  unfold findIndexByKeySorted
  rw [searchLoop_congr h]
  rcases h 0 with ⟨h1, h2⟩ | ⟨v, w, h1, h2, h3⟩
  · rw [h1, h2]
  · rw [h1, h2]
    simp only [h3]
    rcases h (len - 1) with ⟨h1, h2⟩ | ⟨v, w, h1, h2, h3⟩
    · rw [h1, h2]
    · rw [h1, h2]
      simp only [h3]

/-- Searching a sequence whose keys do not descend: an item whose key is the given one, or nothing if there is no such
item. -/
theorem C64_findByKey_sorted (f q x : Expr) (sq : SeqKind Value) (l : List Value) (k : Value) (w : BitWidth) (a : Nat)
    (key : Nat → Nat) (hx : x.Gives s (.seq sq)) (hl : Items (.seq sq) l) (hq : q.Gives s k) (hk : IsInt k (.fixed w) a)
    (hkey : ∀ (i : Nat) e, l[i]? = some e → ∃ c, Applies s f e c ∧ IsInt c (.fixed w) (key i))
    (hsort : ∀ i j, i ≤ j → j < l.length → key i ≤ key j) :
    ∃ v, (Expr.findByKey true f q x).Gives s v ∧
      ((∃ i : Nat, ∃ e, l[i]? = some e ∧ key i = a ∧ v = .optSome e) ∨ ((∀ i, i < l.length → key i ≠ a) ∧ v = .optNone)) := by
  rw [items_seq] at hl
  subst hl
  obtain ⟨u, h1, h2⟩ := hx
  obtain ⟨k0, h3, rfl⟩ := hq
  obtain ⟨ha, hk⟩ := hk
  have hidx : ∀ i e, sq.index i = .ok e ↔ sq.iter[i]? = some e := fun i e =>
    (SeqKind.C27_index sq sq.iter ((SeqKind.C27_denotes_unique _ _).2 rfl) i).1 e
  have hpan : ∀ i, sq.index i = .panic ↔ sq.iter.length ≤ i := fun i =>
    (SeqKind.C27_index sq sq.iter ((SeqKind.C27_denotes_unique _ _).2 rfl) i).2
  have hcongr := sorted_congr (c := fun c => k0.coerceMapped.compareAsKey c)
    (g := fun i => do let v ← sq.index i; f.evalLambda s v) (c' := natCmp a)
    (g' := fun i => if i < sq.iter.length then .ok (key i) else .panic) ?_ sq.iter.length
  · have hlen : sq.len = sq.iter.length := by cases sq <;> simp [SeqKind.len, SeqKind.iter]
    have heval : ∀ r v, findIndexByKeySorted (natCmp a) (fun i => if i < sq.iter.length then .ok (key i) else .panic) sq.iter.length = .ok r →
        (match r with | some i => sq.index i = .ok v | none => True) →
        (Expr.findByKey true f q x).Gives s (match r with | some _ => .optSome v | none => .optNone) := by
      intro r v hr hv
      rw [← hcongr] at hr
      refine ⟨(match r with | some _ => .optSome v | none => .optNone), ?_, by cases r <;> rfl⟩
      simp only [Expr.eval, Panicky.bind_eq_ok, needSeq_iff, Expr.findByKeyOf, if_true]
      refine ⟨u, h1, sq, h2, k0, h3, r, by rw [hlen]; exact hr, ?_⟩
      cases r with
      | none => rfl
      | some i => exact Panicky.bind_eq_ok.2 ⟨v, hv, rfl⟩
    rcases C28_sorted key sq.iter.length a hsort with ⟨i, hr, hi, hki⟩ | ⟨hr, hno⟩
    · have he : sq.iter[i]? = some (sq.iter[i]'hi) := List.getElem?_eq_getElem hi
      exact ⟨_, heval (some i) _ hr ((hidx _ _).2 he), .inl ⟨i, _, he, hki, rfl⟩⟩
    · exact ⟨_, heval none (.bool true) hr trivial, .inr ⟨hno, rfl⟩⟩
  · intro i
    by_cases hi : i < sq.iter.length
    · right
      have he : sq.iter[i]? = some (sq.iter[i]'hi) := List.getElem?_eq_getElem hi
      obtain ⟨c, hc, hb, hcc⟩ := hkey i _ he
      refine ⟨c, key i, Panicky.bind_eq_ok.2 ⟨_, (hidx _ _).2 he, applies_iff.2 hc⟩, if_pos hi, ?_⟩
      rw [hk, hcc]
      simp [Value.compareAsKey, natCmp]
    · left
      refine ⟨?_, if_neg hi⟩
      rw [(hpan i).2 (by omega)]
      rfl

/-! ## Non-vacuity -/

/-- a number as an expression -/
private def n8 (n : Nat) (h : n < 256 := by decide) : Expr := .lit .b8 ⟨n, h⟩

/-- Five items copied from `[3, 1, 2]`, from its second item on. -/
example (s : Scope δ) : (Expr.subSeqInflate (.seq [n8 3, n8 1, n8 2]) (n8 1) (n8 5)).Gives s
    (.seq (.strict [.u8 1, .u8 2, .u8 1, .u8 2, .u8 1])) := by
  exact ⟨_, rfl, rfl⟩

example (s : Scope δ) : (Expr.leftFold (.lambda "p" (.arith .add (.tupleProj (.var "p") 0) (.tupleProj (.var "p") 1)))
    (n8 10) .any (.seq [n8 3, n8 1, n8 2])).Gives s (.u8 16) := by
  exact ⟨_, rfl, rfl⟩

example (s : Scope δ) : (Expr.findByKey true (.lambda "e" (.tupleProj (.var "e") 0)) (n8 2)
    (.seq [.tuple [n8 1, n8 7], .tuple [n8 2, n8 8], .tuple [n8 4, n8 9]])).Gives s (.optSome (.tuple [.u8 2, .u8 8])) := by
  exact ⟨_, rfl, rfl⟩

example (s : Scope δ) : ∃ v, (Expr.subSeq (.enumFromTo (n8 3) (n8 9)) (n8 1) (n8 2)).Gives s v ∧
    Items v [.ofUsize 4, .ofUsize 5] := by
  refine ⟨_, ⟨_, rfl, rfl⟩, items_iff.2 ⟨_, rfl, rfl⟩⟩

example : ArithIs .shl (.fixed .b8) 0x81 1 2 ∧ ArithIs .sub (.fixed .b8) 7 3 4 ∧ ¬ ∃ n, ArithIs .sub (.fixed .b8) 3 7 n := by
  refine ⟨⟨by decide, by decide⟩, (by show 4 + 3 = 7; rfl), ?_⟩
  rintro ⟨n, h⟩
  have : n + 7 = 3 := h
  omega

end Doodle
