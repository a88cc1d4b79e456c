import Verif.Spec.Record
import Verif.Lemmas.FuelMono

namespace Doodle
namespace Record

theorem parse_le_add (env : Env) (n k : Nat) (d : Decoder) (s : Scope Decoder) (c : ReadCtxt) :
    (Decoder.parse env n d s c).le (Decoder.parse env (n + k) d s c) := by
  induction k with
  | zero => exact Outcome.le_refl _
  | succ k ih =>
    intro h
    have h1 := ih h
    have h2 := Decoder.parse_le env (n + k) d s c (by rw [h1]; exact h)
    show Decoder.parse env (n + k + 1) d s c = _
    rw [h2, h1]

theorem parse_mono {env : Env} {n n' : Nat} {d : Decoder} {s : Scope Decoder} {c : ReadCtxt}
    {r : Outcome DecodeErr Parsed} (h : Decoder.parse env n d s c = r) (hr : r ≠ .fuel) (hn : n ≤ n') :
    Decoder.parse env n' d s c = r := by
  obtain ⟨k, rfl⟩ := Nat.exists_eq_add_of_le hn
  rw [← h]
  exact parse_le_add env n k d s c (by rw [h]; exact hr)

theorem yields_letFormat {env : Env} {a b : Decoder} {x : String} {s : Scope Decoder} {c : ReadCtxt} {w : Parsed} :
    Yields env (.letFormat a x b) s c w ↔ ∃ v c' errs w', Yields env a s c ⟨(v, c'), errs⟩ ∧
      Yields env b (.single x v s) c' w' ∧ w = ⟨w'.value, w'.errs ++ errs⟩ := by
  constructor
  · rintro ⟨n, h⟩
    cases n with
    | zero => cases h
    | succ n =>
      obtain ⟨⟨⟨v, c'⟩, errs⟩, h1, h2⟩ := Outcome.bind_eq_ok.1 h
      obtain ⟨w', h3, h4⟩ := Outcome.bind_eq_ok.1 h2
      cases h4
      exact ⟨v, c', errs, w', ⟨n, h1⟩, ⟨n, h3⟩, rfl⟩
  · rintro ⟨v, c', errs, w', ⟨n1, h1⟩, ⟨n2, h2⟩, rfl⟩
    refine ⟨max n1 n2 + 1, ?_⟩
    refine Outcome.bind_eq_ok.2 ⟨_, parse_mono h1 (by intro h; cases h) (Nat.le_max_left ..), ?_⟩
    exact Outcome.bind_eq_ok.2 ⟨_, parse_mono h2 (by intro h; cases h) (Nat.le_max_right ..), rfl⟩

theorem yields_monadSeq {env : Env} {a b : Decoder} {s : Scope Decoder} {c : ReadCtxt} {w : Parsed} :
    Yields env (.monadSeq a b) s c w ↔ ∃ v c' errs w', Yields env a s c ⟨(v, c'), errs⟩ ∧
      Yields env b s c' w' ∧ w = ⟨w'.value, w'.errs ++ errs⟩ := by
  constructor
  · rintro ⟨n, h⟩
    cases n with
    | zero => cases h
    | succ n =>
      obtain ⟨⟨⟨v, c'⟩, errs⟩, h1, h2⟩ := Outcome.bind_eq_ok.1 h
      obtain ⟨w', h3, h4⟩ := Outcome.bind_eq_ok.1 h2
      cases h4
      exact ⟨v, c', errs, w', ⟨n, h1⟩, ⟨n, h3⟩, rfl⟩
  · rintro ⟨v, c', errs, w', ⟨n1, h1⟩, ⟨n2, h2⟩, rfl⟩
    refine ⟨max n1 n2 + 1, ?_⟩
    refine Outcome.bind_eq_ok.2 ⟨_, parse_mono h1 (by intro h; cases h) (Nat.le_max_left ..), ?_⟩
    exact Outcome.bind_eq_ok.2 ⟨_, parse_mono h2 (by intro h; cases h) (Nat.le_max_right ..), rfl⟩

theorem bind_eq_err {ε α β : Type} {x : Outcome ε α} {f : α → Outcome ε β} {e : ε} :
    (x >>= f) = .err e ↔ x = .err e ∨ ∃ a, x = .ok a ∧ f a = .err e := by
  cases x with
  | ok a => exact ⟨fun h => .inr ⟨a, rfl, h⟩, fun h => by
      rcases h with h | ⟨_, h, h'⟩
      · cases h
      · cases h; exact h'⟩
  | err e' => exact ⟨fun h => by cases h; exact .inl rfl, fun h => by
      rcases h with h | ⟨_, h, h'⟩
      · cases h; rfl
      · cases h⟩
  | panic => exact ⟨(fun h => by cases h), fun h => by
      rcases h with h | ⟨_, h, h'⟩ <;> cases h⟩
  | fuel => exact ⟨(fun h => by cases h), fun h => by
      rcases h with h | ⟨_, h, h'⟩ <;> cases h⟩

theorem fails_letFormat {env : Env} {a b : Decoder} {x : String} {s : Scope Decoder} {c : ReadCtxt}
    {e : DecodeErr} :
    Fails env (.letFormat a x b) s c e ↔ Fails env a s c e ∨ ∃ v c' errs, Yields env a s c ⟨(v, c'), errs⟩ ∧
      Fails env b (.single x v s) c' e := by
  constructor
  · rintro ⟨n, h⟩
    cases n with
    | zero => cases h
    | succ n =>
      rcases bind_eq_err.1 h with h | ⟨⟨⟨v, c'⟩, errs⟩, h1, h2⟩
      · exact .inl ⟨n, h⟩
      · rcases bind_eq_err.1 h2 with h3 | ⟨_, _, h4⟩
        · exact .inr ⟨v, c', errs, ⟨n, h1⟩, ⟨n, h3⟩⟩
        · cases h4
  · rintro (⟨n, h⟩ | ⟨v, c', errs, ⟨n1, h1⟩, ⟨n2, h2⟩⟩)
    · exact ⟨n + 1, bind_eq_err.2 (.inl h)⟩
    · refine ⟨max n1 n2 + 1, ?_⟩
      refine bind_eq_err.2 (.inr ⟨_, parse_mono h1 (by intro h; cases h) (Nat.le_max_left ..), ?_⟩)
      exact bind_eq_err.2 (.inl (parse_mono h2 (by intro h; cases h) (Nat.le_max_right ..)))

theorem fails_monadSeq {env : Env} {a b : Decoder} {s : Scope Decoder} {c : ReadCtxt}
    {e : DecodeErr} :
    Fails env (.monadSeq a b) s c e ↔ Fails env a s c e ∨ ∃ v c' errs, Yields env a s c ⟨(v, c'), errs⟩ ∧
      Fails env b s c' e := by
  constructor
  · rintro ⟨n, h⟩
    cases n with
    | zero => cases h
    | succ n =>
      rcases bind_eq_err.1 h with h | ⟨⟨⟨v, c'⟩, errs⟩, h1, h2⟩
      · exact .inl ⟨n, h⟩
      · rcases bind_eq_err.1 h2 with h3 | ⟨_, _, h4⟩
        · exact .inr ⟨v, c', errs, ⟨n, h1⟩, ⟨n, h3⟩⟩
        · cases h4
  · rintro (⟨n, h⟩ | ⟨v, c', errs, ⟨n1, h1⟩, ⟨n2, h2⟩⟩)
    · exact ⟨n + 1, bind_eq_err.2 (.inl h)⟩
    · refine ⟨max n1 n2 + 1, ?_⟩
      refine bind_eq_err.2 (.inr ⟨_, parse_mono h1 (by intro h; cases h) (Nat.le_max_left ..), ?_⟩)
      exact bind_eq_err.2 (.inl (parse_mono h2 (by intro h; cases h) (Nat.le_max_right ..)))

theorem yields_compute {env : Env} {e : Expr} {s : Scope Decoder} {c : ReadCtxt} {w : Parsed} :
    Yields env (.compute e) s c w ↔ ∃ v, e.evalValue s = .ok v ∧ w = ⟨(v, c), []⟩ := by
  constructor
  · rintro ⟨n, h⟩
    cases n with
    | zero => cases h
    | succ n =>
      obtain ⟨v, h1, h2⟩ := Outcome.bind_eq_ok.1 h
      cases h2
      exact ⟨v, Outcome.ofPanicky_eq_ok.1 h1, rfl⟩
  · rintro ⟨v, h, rfl⟩
    exact ⟨1, Outcome.bind_eq_ok.2 ⟨v, Outcome.ofPanicky_eq_ok.2 h, rfl⟩⟩

theorem not_fails_compute {env : Env} {e : Expr} {s : Scope Decoder} {c : ReadCtxt} {er : DecodeErr} :
    ¬ Fails env (.compute e) s c er := by
  rintro ⟨n, h⟩
  cases n with
  | zero => cases h
  | succ n =>
    rcases bind_eq_err.1 h with h | ⟨_, _, h⟩
    · cases hv : e.evalValue s <;> rw [hv] at h <;> cases h
    · cases h

/-- the record expression of these names -/
def vars (xs : List String) : List (String × Expr) := xs.map fun x => (x, .var x)

theorem evalFields_vars {s : Scope Decoder} : ∀ {xs : List String} {fs : List (String × Value)},
    Expr.evalFields (vars xs) s = .ok fs ↔ fs.map (·.1) = xs ∧ ∀ p ∈ fs, s.getValue p.1 = some p.2 := by
  intro xs
  induction xs with
  | nil =>
    intro fs
    constructor
    · intro h; cases h; exact ⟨rfl, (fun _ h => by cases h)⟩
    · rintro ⟨h, -⟩
      cases fs with
      | nil => rfl
      | cons _ _ => cases h
  | cons x xs ih =>
    intro fs
    constructor
    · intro h
      obtain ⟨v, h1, h2⟩ := Panicky.bind_eq_ok.1 h
      obtain ⟨vs, h3, h4⟩ := Panicky.bind_eq_ok.1 h2
      cases h4
      obtain ⟨ha, hb⟩ := ih.1 h3
      have h5 : Panicky.unwrap (s.getValue x) = .ok v := h1
      refine ⟨by rw [List.map_cons, ha], fun p hp => ?_⟩
      rcases List.mem_cons.1 hp with rfl | hp
      · cases hg : s.getValue x <;> rw [hg] at h5 <;> cases h5
        rfl
      · exact hb p hp
    · rintro ⟨h1, h2⟩
      cases fs with
      | nil => cases h1
      | cons p fs =>
        obtain ⟨y, v⟩ := p
        injection h1 with h3 h4
        have h3 : y = x := h3
        subst h3
        have h5 := h2 _ (List.mem_cons_self ..)
        refine Panicky.bind_eq_ok.2 ⟨v, ?_, Panicky.bind_eq_ok.2
          ⟨fs, ih.2 ⟨h4, fun p hp => h2 p (List.mem_cons_of_mem _ hp)⟩, rfl⟩⟩
        show Panicky.unwrap (s.getValue y) = .ok v
        rw [h5]; rfl

theorem vars_append (xs : List String) (x : String) : vars xs ++ [(x, .var x)] = vars (xs ++ [x]) := by
  simp [vars]

theorem chain_end {env : Env} {xs : List String} {s : Scope Decoder} {c : ReadCtxt} {w : Parsed} :
    Yields env (.compute (if (vars xs).isEmpty then Expr.unit else .record (vars xs))) s c w ↔
      ∃ fs, w = ⟨(recordValue fs, c), []⟩ ∧ fs.map (·.1) = xs ∧ ∀ p ∈ fs, s.getValue p.1 = some p.2 := by
  rw [yields_compute]
  cases xs with
  | nil =>
    constructor
    · rintro ⟨v, h, rfl⟩
      cases h
      exact ⟨[], rfl, rfl, fun _ h => by cases h⟩
    · rintro ⟨fs, rfl, h, -⟩
      cases fs with
      | nil => exact ⟨_, rfl, rfl⟩
      | cons _ _ => cases h
  | cons x xs =>
    constructor
    · rintro ⟨v, h, rfl⟩
      obtain ⟨v', h1, h2⟩ := Panicky.bind_eq_ok.1 h
      obtain ⟨fs, h3, h4⟩ := Panicky.bind_eq_ok.1 (show (Expr.evalFields (vars (x :: xs)) s >>= fun vs =>
        Panicky.ok (Value.record vs)) = _ from h1)
      cases h4
      cases h2
      obtain ⟨ha, hb⟩ := evalFields_vars.1 h3
      cases fs with
      | nil => cases ha
      | cons p fs => exact ⟨p :: fs, rfl, ha, hb⟩
    · rintro ⟨fs, rfl, ha, hb⟩
      cases fs with
      | nil => cases ha
      | cons p fs =>
        refine ⟨_, ?_, rfl⟩
        refine Panicky.bind_eq_ok.2 ⟨.record (p :: fs), ?_, rfl⟩
        exact Panicky.bind_eq_ok.2 ⟨_, evalFields_vars.2 ⟨ha, hb⟩, rfl⟩

theorem chain_run [DecidableEq Next] {m : Module} {o : BuildOpts} :
    ∀ (fields : List Field) (xs : List String) (next : Next) (st st' : CompSt) (d : Decoder),
    compileFormat m o (chainRecord (vars xs) fields) next st = .ok (d, st') →
    ∃ parts, CompiledFrom m o fields parts ∧ ∀ env s c,
      (∀ w, Yields env d s c w ↔ ∃ vs c' errs fs, FieldsRun env parts s c vs c' errs ∧
        w = ⟨(recordValue fs, c'), errs⟩ ∧ fs.map (·.1) = xs ++ keptNames (fields.map (·.1)) ∧
        ∀ p ∈ fs, (bindAll (fields.map (·.1)) vs s).getValue p.1 = some p.2) ∧
      (∀ e, Fails env d s c e ↔ FieldsFail env parts s c e) := by
  intro fields
  induction fields with
  | nil =>
    intro xs next st st' d h
    refine ⟨[], trivial, fun env s c => ?_⟩
    have hd : d = .compute (if (vars xs).isEmpty then Expr.unit else .record (vars xs)) := by
      unfold chainRecord at h
      split at h <;> rename_i hx <;> simp only [compileFormat] at h <;> cases h <;> simp [hx]
    subst hd
    constructor
    · intro w
      rw [chain_end]
      constructor
      · rintro ⟨fs, rfl, h1, h2⟩
        exact ⟨[], c, [], fs, .nil, rfl, by rw [h1]; exact (List.append_nil _).symm, h2⟩
      · rintro ⟨vs, c', errs, fs, hr, rfl, h1, h2⟩
        cases hr
        exact ⟨fs, rfl, by rw [h1]; exact List.append_nil _, h2⟩
    · intro e
      exact ⟨fun h => absurd h not_fails_compute, fun h => by cases h⟩
  | cons f fields ih =>
    intro xs next st st' d h
    obtain ⟨l, f⟩ := f
    cases l with
    | none =>
      simp only [chainRecord, compileFormat] at h
      obtain ⟨⟨d1, st1⟩, h1, h⟩ := Outcome.bind_eq_ok.1 h
      obtain ⟨⟨d2, st2⟩, h2, h⟩ := Outcome.bind_eq_ok.1 h
      cases h
      obtain ⟨parts, hp, hrun⟩ := ih xs next st1 _ d2 h2
      refine ⟨(none, d1) :: parts, ⟨rfl, ⟨_, _, _, h1⟩, hp⟩, fun env s c => ⟨fun w => ?_, fun e => ?_⟩⟩
      · rw [yields_monadSeq]
        constructor
        · rintro ⟨v, c', errs, w', ha, hb, rfl⟩
          obtain ⟨vs, c'', errs', fs, hr, rfl, hx, hy⟩ := ((hrun env s c').1 w').1 hb
          exact ⟨v :: vs, c'', _, fs, .cons ha hr, rfl, hx, hy⟩
        · rintro ⟨vs, c', errs, fs, hr, rfl, hx, hy⟩
          cases hr with
          | cons ha hr =>
            exact ⟨_, _, _, _, ha, ((hrun env s _).1 _).2 ⟨_, _, _, fs, hr, rfl, hx, hy⟩, rfl⟩
      · rw [fails_monadSeq]
        constructor
        · rintro (h | ⟨v, c', errs, ha, hb⟩)
          · exact .here h
          · exact .later ha (((hrun env s c').2 e).1 hb)
        · intro h
          cases h with
          | here h => exact .inl h
          | later ha hb => exact .inr ⟨_, _, _, ha, ((hrun env s _).2 e).2 hb⟩
    | some p =>
      obtain ⟨x, keep⟩ := p
      simp only [chainRecord, compileFormat] at h
      obtain ⟨⟨d1, st1⟩, h1, h⟩ := Outcome.bind_eq_ok.1 h
      obtain ⟨⟨d2, st2⟩, h2, h⟩ := Outcome.bind_eq_ok.1 h
      cases h
      have hv : (if keep then vars xs ++ [(x, Expr.var x)] else vars xs)
          = vars (xs ++ if keep then [x] else []) := by
        cases keep
        · simp
        · exact vars_append xs x
      rw [hv] at h2
      obtain ⟨parts, hp, hrun⟩ := ih _ next st1 _ d2 h2
      have hn : ∀ fs : List (String × Value), fs.map (·.1) = (xs ++ if keep then [x] else []) ++ keptNames (fields.map (·.1)) ↔
          fs.map (·.1) = xs ++ keptNames (some (x, keep) :: fields.map (·.1)) := by
        intro fs
        cases keep <;> simp [keptNames]
      refine ⟨(some (x, keep), d1) :: parts, ⟨rfl, ⟨_, _, _, h1⟩, hp⟩, fun env s c => ⟨fun w => ?_, fun e => ?_⟩⟩
      · rw [yields_letFormat]
        constructor
        · rintro ⟨v, c', errs, w', ha, hb, rfl⟩
          obtain ⟨vs, c'', errs', fs, hr, rfl, hx, hy⟩ := ((hrun env _ c').1 w').1 hb
          exact ⟨v :: vs, c'', _, fs, .cons ha hr, rfl, (hn fs).1 hx, hy⟩
        · rintro ⟨vs, c', errs, fs, hr, rfl, hx, hy⟩
          cases hr with
          | cons ha hr =>
            exact ⟨_, _, _, _, ha, ((hrun env _ _).1 _).2 ⟨_, _, _, fs, hr, rfl, (hn fs).2 hx, hy⟩, rfl⟩
      · rw [fails_letFormat]
        constructor
        · rintro (h | ⟨v, c', errs, ha, hb⟩)
          · exact .here h
          · exact .later ha (((hrun env _ c').2 e).1 hb)
        · intro h
          cases h with
          | here h => exact .inl h
          | later ha hb => exact .inr ⟨_, _, _, ha, ((hrun env _ _).2 e).2 hb⟩

theorem chaining_run [DecidableEq Next] {m : Module} {o : BuildOpts} (ret : Format) :
    ∀ (steps : List (Option String × Format)) (next : Next) (st st' : CompSt) (d : Decoder),
    compileFormat m o (chaining steps ret) next st = .ok (d, st') →
    ∃ parts dret, CompiledFrom m o (steps.map step) parts ∧
      (∃ (next : Next) (st st' : CompSt), compileFormat m o ret next st = .ok (dret, st')) ∧ ∀ env s c,
      (∀ w, Yields env d s c w ↔ ∃ vs c' errs w', FieldsRun env parts s c vs c' errs ∧
        Yields env dret (bindAll (parts.map (·.1)) vs s) c' w' ∧ w = ⟨w'.value, w'.errs ++ errs⟩) ∧
      (∀ e, Fails env d s c e ↔ FieldsFail env parts s c e ∨ ∃ vs c' errs, FieldsRun env parts s c vs c' errs ∧
        Fails env dret (bindAll (parts.map (·.1)) vs s) c' e) := by
  intro steps
  induction steps with
  | nil =>
    intro next st st' d h
    refine ⟨[], d, trivial, ⟨_, _, _, h⟩, fun env s c => ⟨fun w => ?_, fun e => ?_⟩⟩
    · constructor
      · intro hy
        exact ⟨[], c, [], w, .nil, hy, by simp⟩
      · rintro ⟨vs, c', errs, w', hr, hy, rfl⟩
        cases hr
        simpa [bindAll] using hy
    · constructor
      · intro h
        exact .inr ⟨[], c, [], .nil, h⟩
      · rintro (h | ⟨vs, c', errs, hr, h⟩)
        · cases h
        · cases hr; exact h
  | cons f steps ih =>
    intro next st st' d h
    obtain ⟨l, f⟩ := f
    cases l with
    | none =>
      simp only [chaining, compileFormat] at h
      obtain ⟨⟨d1, st1⟩, h1, h⟩ := Outcome.bind_eq_ok.1 h
      obtain ⟨⟨d2, st2⟩, h2, h⟩ := Outcome.bind_eq_ok.1 h
      cases h
      obtain ⟨parts, dret, hp, hret, hrun⟩ := ih next st1 _ d2 h2
      refine ⟨(none, d1) :: parts, dret, ⟨rfl, ⟨_, _, _, h1⟩, hp⟩, hret, fun env s c => ⟨fun w => ?_, fun e => ?_⟩⟩
      · rw [yields_monadSeq]
        constructor
        · rintro ⟨v, c', errs, w', ha, hb, rfl⟩
          obtain ⟨vs, c'', errs', w'', hr, hy, rfl⟩ := ((hrun env s c').1 w').1 hb
          exact ⟨v :: vs, c'', _, w'', .cons ha hr, hy, by simp⟩
        · rintro ⟨vs, c', errs, w', hr, hy, rfl⟩
          cases hr with
          | cons ha hr =>
            exact ⟨_, _, _, _, ha, ((hrun env s _).1 _).2 ⟨_, _, _, w', hr, hy, rfl⟩, by simp⟩
      · rw [fails_monadSeq]
        constructor
        · rintro (h | ⟨v, c', errs, ha, hb⟩)
          · exact .inl (.here h)
          · rcases ((hrun env s c').2 e).1 hb with hb | ⟨vs, c'', errs', hr, hb⟩
            · exact .inl (.later ha hb)
            · exact .inr ⟨v :: vs, c'', _, .cons ha hr, hb⟩
        · rintro (h | ⟨vs, c', errs, hr, h⟩)
          · cases h with
            | here h => exact .inl h
            | later ha hb => exact .inr ⟨_, _, _, ha, ((hrun env s _).2 e).2 (.inl hb)⟩
          · cases hr with
            | cons ha hr => exact .inr ⟨_, _, _, ha, ((hrun env s _).2 e).2 (.inr ⟨_, _, _, hr, h⟩)⟩
    | some x =>
      simp only [chaining, compileFormat] at h
      obtain ⟨⟨d1, st1⟩, h1, h⟩ := Outcome.bind_eq_ok.1 h
      obtain ⟨⟨d2, st2⟩, h2, h⟩ := Outcome.bind_eq_ok.1 h
      cases h
      obtain ⟨parts, dret, hp, hret, hrun⟩ := ih next st1 _ d2 h2
      refine ⟨(some (x, false), d1) :: parts, dret, ⟨rfl, ⟨_, _, _, h1⟩, hp⟩, hret,
        fun env s c => ⟨fun w => ?_, fun e => ?_⟩⟩
      · rw [yields_letFormat]
        constructor
        · rintro ⟨v, c', errs, w', ha, hb, rfl⟩
          obtain ⟨vs, c'', errs', w'', hr, hy, rfl⟩ := ((hrun env _ c').1 w').1 hb
          exact ⟨v :: vs, c'', _, w'', .cons ha hr, hy, by simp⟩
        · rintro ⟨vs, c', errs, w', hr, hy, rfl⟩
          cases hr with
          | cons ha hr =>
            exact ⟨_, _, _, _, ha, ((hrun env _ _).1 _).2 ⟨_, _, _, w', hr, hy, rfl⟩, by simp⟩
      · rw [fails_letFormat]
        constructor
        · rintro (h | ⟨v, c', errs, ha, hb⟩)
          · exact .inl (.here h)
          · rcases ((hrun env _ c').2 e).1 hb with hb | ⟨vs, c'', errs', hr, hb⟩
            · exact .inl (.later ha hb)
            · exact .inr ⟨v :: vs, c'', _, .cons ha hr, hb⟩
        · rintro (h | ⟨vs, c', errs, hr, h⟩)
          · cases h with
            | here h => exact .inl h
            | later ha hb => exact .inr ⟨_, _, _, ha, ((hrun env _ _).2 e).2 (.inl hb)⟩
          · cases hr with
            | cons ha hr => exact .inr ⟨_, _, _, ha, ((hrun env _ _).2 e).2 (.inr ⟨_, _, _, hr, h⟩)⟩

theorem FieldsRun.length {env : Env} {parts s c vs c' errs} (h : FieldsRun env parts s c vs c' errs) :
    vs.length = parts.length := by
  induction h with
  | nil => rfl
  | cons _ _ ih => simp [ih]

theorem CompiledFrom.labels [DecidableEq Next] {m : Module} {o : BuildOpts} :
    ∀ {fields : List Field} {parts : List (Lab × Decoder)}, CompiledFrom m o fields parts →
    fields.map (·.1) = parts.map (·.1) := by
  intro fields
  induction fields with
  | nil => intro parts h; cases parts with
    | nil => rfl
    | cons _ _ => exact h.elim
  | cons f fields ih => intro parts h; cases parts with
    | nil => exact h.elim
    | cons p parts =>
      rw [List.map_cons, List.map_cons, h.1, ih h.2.2]

theorem getValue_bindField (l : Lab) (v : Value) (s : Scope Decoder) (x : String) :
    (bindField l v s).getValue x = (if l.map (·.1) = some x then some v else none).or (s.getValue x) := by
  cases l with
  | none => simp [bindField]
  | some p =>
    simp only [bindField, Scope.getValue, Option.map_some, Option.some.injEq]
    split <;> simp

theorem getValue_bindAll (x : String) : ∀ (ls : List Lab) (vs : List Value) (s : Scope Decoder),
    (bindAll ls vs s).getValue x = (lastNamed x ls vs).or (s.getValue x)
  | [], _, s => by simp [bindAll, lastNamed]
  | _ :: _, [], s => by simp [bindAll, lastNamed]
  | l :: ls, v :: vs, s => by
    rw [bindAll, getValue_bindAll x ls vs, lastNamed, getValue_bindField, Option.or_assoc]

theorem lastNamed_some {x : String} : ∀ {ls : List Lab} {vs : List Value}, x ∈ keptNames ls →
    ls.length = vs.length → ∃ v, lastNamed x ls vs = some v
  | [], _, h, _ => by cases h
  | _ :: _, [], _, h => by cases h
  | l :: ls, v :: vs, h, hl => by
    have hl : ls.length = vs.length := Nat.succ.inj hl
    rw [lastNamed]
    by_cases hx : x ∈ keptNames ls
    · obtain ⟨u, hu⟩ := lastNamed_some hx hl
      exact ⟨u, by rw [hu]; rfl⟩
    · have h : l.map (·.1) = some x := by
        cases l with
        | none => exact absurd h hx
        | some p =>
          obtain ⟨y, b⟩ := p
          cases b with
          | false => exact absurd h hx
          | true =>
            rcases List.mem_cons.1 h with h | h
            · rw [h]; rfl
            · exact absurd h hx
      rw [h]
      cases lastNamed x ls vs with
      | none => exact ⟨v, by simp⟩
      | some u => exact ⟨u, rfl⟩

theorem lastNamed_none {x : String} : ∀ {ls : List Lab} {vs : List Value}, (∀ b, some (x, b) ∉ ls) →
    lastNamed x ls vs = none
  | [], _, _ => by simp [lastNamed]
  | _ :: _, [], _ => by simp [lastNamed]
  | l :: ls, v :: vs, h => by
    rw [lastNamed, lastNamed_none (fun b hb => h b (List.mem_cons_of_mem _ hb))]
    have : l.map (·.1) ≠ some x := by
      intro hl
      cases l with
      | none => cases hl
      | some p =>
        obtain ⟨y, b⟩ := p
        cases hl
        exact h b (List.mem_cons_self ..)
    simp [this]

theorem mem_keptNames {x : String} : ∀ {ls : List Lab}, x ∈ keptNames ls ↔ some (x, true) ∈ ls
  | [] => by simp [keptNames]
  | none :: ls => by simp [keptNames, mem_keptNames (ls := ls)]
  | some (y, false) :: ls => by simp [keptNames, mem_keptNames (ls := ls)]
  | some (y, true) :: ls => by simp [keptNames, mem_keptNames (ls := ls)]

theorem kept_names : ∀ {ls : List Lab} {vs : List Value}, ls.length = vs.length →
    (kept ls vs).map (·.1) = keptNames ls
  | [], [], _ => rfl
  | [], _ :: _, h => by cases h
  | _ :: _, [], h => by cases h
  | none :: ls, v :: vs, h => by simp [kept, keptNames, kept_names (Nat.succ.inj h)]
  | some (x, false) :: ls, v :: vs, h => by simp [kept, keptNames, kept_names (Nat.succ.inj h)]
  | some (x, true) :: ls, v :: vs, h => by simp [kept, keptNames, kept_names (Nat.succ.inj h)]

theorem kept_last : ∀ {ls : List Lab} {vs : List Value}, NoRebind ls → ls.length = vs.length →
    ∀ p ∈ kept ls vs, lastNamed p.1 ls vs = some p.2
  | [], [], _, _, p, hp => by cases hp
  | [], _ :: _, _, h, _, _ => by cases h
  | _ :: _, [], _, h, _, _ => by cases h
  | none :: ls, v :: vs, hn, h, p, hp => by
    rw [lastNamed, kept_last hn.1 (Nat.succ.inj h) p (by simpa [kept] using hp)]; rfl
  | some (x, false) :: ls, v :: vs, hn, h, p, hp => by
    rw [lastNamed, kept_last hn.1 (Nat.succ.inj h) p (by simpa [kept] using hp)]; rfl
  | some (x, true) :: ls, v :: vs, hn, h, p, hp => by
    rw [lastNamed]
    rcases List.mem_cons.1 (show p ∈ (x, v) :: kept ls vs by simpa [kept] using hp) with rfl | hp
    · rw [lastNamed_none (hn.2 x rfl)]
      simp
    · rw [kept_last hn.1 (Nat.succ.inj h) p hp]; rfl

/-- two association lists with the same keys that agree with one function are equal -/
theorem assoc_unique {g : String → Option Value} : ∀ {as bs : List (String × Value)},
    as.map (·.1) = bs.map (·.1) → (∀ p ∈ as, g p.1 = some p.2) → (∀ p ∈ bs, g p.1 = some p.2) → as = bs
  | [], [], _, _, _ => rfl
  | [], _ :: _, h, _, _ => by cases h
  | _ :: _, [], h, _, _ => by cases h
  | (x, v) :: as, (y, w) :: bs, h, ha, hb => by
    injection h with h1 h2
    have h1 : x = y := h1
    subst h1
    have e1 := ha _ (List.mem_cons_self ..)
    have e2 := hb _ (List.mem_cons_self ..)
    have e1 : g x = some v := e1
    have e2 : g x = some w := e2
    rw [e1] at e2
    cases e2
    rw [assoc_unique h2 (fun p hp => ha p (List.mem_cons_of_mem _ hp))
      (fun p hp => hb p (List.mem_cons_of_mem _ hp))]

theorem Shaped.nonempty {before : List String} {fs : List Field} {f : Format} (h : Shaped before fs f) :
    before ++ keptNames (fs.map (·.1)) ≠ [] := by
  induction h with
  | done h => simpa [keptNames] using h
  | hint _ ih => exact ih
  | unnamed _ ih => exact ih
  | temporary _ ih => exact ih
  | permanent _ ih => simp [keptNames]

theorem Shaped.accum {before : List String} {fs : List Field} {f : Format} (h : Shaped before fs f) :
    ∀ labels formats, Builder.accum ⟨labels, formats, none⟩ f =
      .ok ⟨labels ++ fs.map (fun p => p.1.map (·.1)), formats ++ fs.map (·.2),
        some (vars (before ++ keptNames (fs.map (·.1))))⟩ := by
  induction h with
  | done h => intro labels formats; simp [Builder.accum, keptNames, vars]
  | hint _ ih => intro labels formats; rw [Builder.accum]; exact ih labels formats
  | unnamed _ ih => intro labels formats; rw [Builder.accum, ih]; simp [keptNames]
  | temporary _ ih => intro labels formats; rw [Builder.accum, ih]; simp [keptNames]
  | permanent _ ih => intro labels formats; rw [Builder.accum, ih]; simp [keptNames]

theorem keptLoop_vars : ∀ (xs : List String) (acc : List (String × String)),
    keptLoop (vars xs) acc = .ok ((xs.map fun x => (x, x)).reverse ++ acc)
  | [], acc => rfl
  | x :: xs, acc => by
    show keptLoop (vars xs) ((x, x) :: acc) = _
    rw [keptLoop_vars xs]; simp

theorem keptGet_pairs (x : String) : ∀ (xs : List String),
    keptGet x (xs.map fun x => (x, x)) = if x ∈ xs then some x else none
  | [] => by simp [keptGet]
  | y :: xs => by
    rw [List.map_cons, keptGet, keptGet_pairs x xs]
    by_cases h : y = x
    · simp [h]
    · have h' : ¬ x = y := fun e => h e.symm
      simp [h, h']

theorem Shaped.flatten {fs : List Field} {f : Format} (h : Shaped [] fs f)
    (hc : NoClash (fs.map (·.1))) :
    flatten f = .ok (fs.map fun p => (flatLabel p.1, p.2)) := by
  have ha := h.accum [] []
  simp only [List.nil_append] at ha
  unfold Record.flatten
  rw [show Builder.init = ⟨[], [], none⟩ from rfl, ha]
  show Outcome.ofPanicky _ = _
  apply Outcome.ofPanicky_eq_ok.2
  refine Panicky.bind_eq_ok.2 ⟨_, rfl, Panicky.bind_eq_ok.2 ⟨_, keptLoop_vars _ _, ?_⟩⟩
  congr 1
  rw [List.append_nil, ← List.map_reverse, List.zip_map', List.map_map]
  apply List.map_congr_left
  intro p hp
  obtain ⟨l, g⟩ := p
  simp only [Function.comp, Prod.mk.injEq, and_true]
  have hm : l ∈ fs.map (·.1) := List.mem_map.2 ⟨_, hp, rfl⟩
  cases l with
  | none => rfl
  | some q =>
    obtain ⟨x, b⟩ := q
    simp only [Option.map_some, fieldLabel, keptGet_pairs, List.mem_reverse, mem_keptNames]
    cases b with
    | true => simp [hm, flatLabel]
    | false =>
      have : some (x, true) ∉ fs.map (·.1) := fun hk => hc x hk hm
      simp only [if_neg this, flatLabel]

theorem toOption_flatLabel (l : Lab) : (flatLabel l).toOption = l := by
  cases l with
  | none => rfl
  | some p => obtain ⟨x, b⟩ := p; cases b <;> rfl

theorem intoFormat_flatLabel (fs : List Field) :
    intoFormat (fs.map fun p => (flatLabel p.1, p.2)) = recordExt fs := by
  unfold intoFormat recordExt
  rw [List.map_map]
  congr 2
  conv => rhs; rw [← List.map_id fs]
  apply List.map_congr_left
  intro p _
  simp [toOption_flatLabel]

theorem Shaped.ofChain : ∀ (fs : List Field) (before : List String),
    before ++ keptNames (fs.map (·.1)) ≠ [] → Shaped before fs (chainRecord (vars before) fs)
  | [], before, h => by
    have h : before ≠ [] := by simpa [keptNames] using h
    have hv : (vars before).isEmpty = false := by
      cases before with
      | nil => exact absurd rfl h
      | cons _ _ => rfl
    rw [chainRecord, hv]
    exact .done h
  | (none, f) :: fs, before, h => .unnamed (Shaped.ofChain fs before h)
  | (some (x, false), f) :: fs, before, h => .temporary (Shaped.ofChain fs before h)
  | (some (x, true), f) :: fs, before, h => by
    refine .permanent ?_
    rw [if_pos rfl, vars_append]
    exact Shaped.ofChain fs (before ++ [x]) (by simp)

end Record
end Doodle
