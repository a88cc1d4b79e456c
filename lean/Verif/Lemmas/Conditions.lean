import Verif.Spec.Conditions
import Verif.Lemmas.Helper
import Verif.Props.Combinators
import Verif.Props.Shadow
import Verif.Props.SeqKind

/-! Lemmas about conditions and the expressions made by the helpers. -/

namespace Doodle
namespace Helper

open Num (BitWidth)

theorem ends_where {env : Env} {b : Decoder} {e : Expr} {strict : Bool} {s : Scope Decoder} {c : ReadCtxt} :
    (∀ x, Ends env b s c (.err x) → Ends env (.where_ b e strict) s c (.err x)) ∧
    (∀ (u : Parsed), Ends env b s c (.ok u) →
      (e.evalLambda s u.value.1 = .ok (.bool true) → Ends env (.where_ b e strict) s c (.ok u)) ∧
      (e.evalLambda s u.value.1 = .ok (.bool false) →
        Ends env (.where_ b e strict) s c (if strict then .err (.badWhere e u.value.1)
          else .ok ⟨u.value, .badWhere e u.value.1 :: u.errs⟩))) := by
  constructor
  · rintro x ⟨_, n, h⟩
    refine ends_of (n + 1) nofun ?_
    show (Decoder.parse env n b s c >>= _) = _
    rw [show Decoder.parse env n b s c = _ from h 0]; rfl
  · rintro u ⟨_, n, h⟩
    have key : ∀ x, e.evalLambda s u.value.1 = .ok (.bool x) → Decoder.parse env (n + 1) (.where_ b e strict) s c =
        (if x then .ok u else if strict then .err (.badWhere e u.value.1)
          else .ok ⟨u.value, .badWhere e u.value.1 :: u.errs⟩) := by
      intro x hx
      show (Decoder.parse env n b s c >>= _) = _
      rw [show Decoder.parse env n b s c = _ from h 0, Outcome.bind_ok]
      unfold WithErr.joinO Decoder.lambdaBool
      dsimp only
      rw [hx]
      cases x <;> cases strict <;> rfl
    constructor
    · intro hx; exact ends_of (n + 1) nofun (key true hx)
    · intro hx; exact ends_of (n + 1) (by cases strict <;> nofun) (key false hx)

theorem checks_where [DecidableEq Next] {f : Format} {e : Expr} {strict : Bool} {w : BitWidth}
    {D : Scope Decoder → Prop} {P : Scope Decoder → Nat → Prop} (h : ∀ s v n, D s → n < 2 ^ w.bits →
      v.coerceMapped = num w n → ∃ b, e.evalLambda s v = .ok (.bool b) ∧ (b = true ↔ P s n)) :
    Checks f (.where_ f e strict) strict w D P := by
  intro m o next st st' b hb
  refine ⟨.where_ b e strict, ?_, fun env s c hD => ⟨ends_where.1, fun u n hn hu hv => ?_⟩⟩
  · rw [compileFormat, hb]; rfl
  · obtain ⟨x, hx, hP⟩ := h s _ n hD hn hv
    obtain ⟨h1, h2⟩ := (ends_where (e := e) (strict := strict)).2 u hu
    cases x with
    | true => exact ⟨fun _ => h1 hx, fun hn => absurd (hP.1 rfl) hn⟩
    | false =>
      have h2 := h2 hx
      refine ⟨fun hp => absurd (hP.2 hp) (by simp), fun _ => ⟨?_, ?_⟩⟩
      · rintro rfl; exact ⟨_, h2⟩
      · rintro rfl; exact ⟨_, h2⟩

theorem mapped_nominal (v : Value) : v.coerceMapped.coerceNominal = v.coerceNominal := by
  fun_induction Value.coerceMapped v with
  | case1 o v ih => rw [ih, Value.coerceNominal]
  | case2 n v ih => rw [ih, Value.coerceNominal]
  | case3 v ih => rw [ih, Value.coerceNominal]
  | case4 v => rfl

theorem mapped_twice (v : Value) : v.coerceMapped.coerceMapped = v.coerceMapped := by
  fun_induction Value.coerceMapped v with
  | case1 o v ih => exact ih
  | case2 n v ih => exact ih
  | case3 v ih => exact ih
  | case4 v h1 h2 h3 => rw [Value.coerceMapped] <;> assumption

theorem num_nominal {v : Value} {w : BitWidth} {n : Nat} (h : v.coerceMapped = num w n) : v.coerceNominal = num w n := by
  rw [← mapped_nominal, h]; rfl

theorem bool_nominal {v : Value} {b : Bool} (h : v.coerceMapped = .bool b) : v.coerceNominal = .bool b := by
  rw [← mapped_nominal, h]; rfl

theorem is_iff {δ : Type} {e : Expr} {s : Scope δ} {v : Value} : Is e s v ↔ ∃ x, e.eval s = .ok x ∧ x.coerceMapped = v := by
  unfold Is Expr.evalValue
  constructor
  · intro h
    obtain ⟨x, hx, h⟩ := Panicky.bind_eq_ok.1 h
    cases h; exact ⟨x, hx, rfl⟩
  · rintro ⟨x, hx, rfl⟩; rw [hx]; rfl

theorem is_congr {δ : Type} {e : Expr} {s s' : Scope δ} {v : Value} (h : ∀ x, e.free x → s.getValue x = s'.getValue x)
    (hv : Is e s v) : Is e s' v := by
  unfold Is Expr.evalValue at *
  rwa [← eval_congr e s s' h]

theorem eval_nil {δ : Type} (e : Expr) (s : Scope δ) : e.eval (s.withBindings []) = e.eval s :=
  eval_congr e _ s fun x _ => C20_frame s [] x nofun

/-- the first branch whose pattern matches is taken -/
theorem is_branch {δ : Type} {e : Expr} {p : Pattern} {rest : List (Pattern × Expr)} {s : Scope δ} {x : Value} :
    Expr.evalBranches ((p, e) :: rest) s x = match x.matchesPat p with
      | some bs => (do let r ← e.eval (s.withBindings bs); .ok r.coerceMapped)
      | none => Expr.evalBranches rest s x := by
  rw [Expr.evalBranches]; rfl

theorem matches_int {v : Value} {w : BitWidth} {n : Nat} (hn : n < 2 ^ w.bits) (h : v.coerceMapped = num w n) (b : Bounds) :
    v.matchesPat (.int b) = if b.contains n then some [] else none := by
  unfold Value.matchesPat
  rw [num_nominal h, num_eq hn]
  rfl

theorem matches_bool {v : Value} {b : Bool} (h : v.coerceMapped = .bool b) (b' : Bool) :
    v.matchesPat (.bool b') = if b' = b then some [] else none := by
  unfold Value.matchesPat
  rw [bool_nominal h]
  cases b <;> cases b' <;> rfl

theorem matches_wildcard (v : Value) : v.matchesPat .wildcard = some [] := by
  unfold Value.matchesPat; rw [Pattern.matchesInner]

theorem rel_num {δ : Type} {a b : Expr} {s : Scope δ} {w : BitWidth} {x y : Nat} (r : IntRel) (hx : x < 2 ^ w.bits)
    (hy : y < 2 ^ w.bits) (ha : Is a s (num w x)) (hb : Is b s (num w y)) :
    (Expr.intRel r a b).eval s = .ok (.bool (Value.rel r x y)) := by
  obtain ⟨u, hu, hu'⟩ := is_iff.1 ha
  obtain ⟨v, hv, hv'⟩ := is_iff.1 hb
  rw [Expr.eval, bind_ok_eq hu, bind_ok_eq hv, hu', hv', num_eq hx, num_eq hy]
  unfold Value.intRel
  dsimp only
  rw [if_pos rfl]

theorem var_single {δ : Type} (x : String) (v : Value) (s : Scope δ) :
    (Expr.var x).eval (.single x v s) = .ok v := by
  simp [Expr.eval, Scope.getValue, Panicky.unwrap]

theorem lambda_of {δ : Type} {x : String} {body : Expr} {s : Scope δ} {v r : Value}
    (h : Is body (.single x v s) r) : (Expr.lambda x body).evalLambda s v = .ok r := by
  rw [Expr.evalLambda]; exact h

theorem is_lit {δ : Type} {w : BitWidth} {n : Nat} {s : Scope δ} : Is (lit w n) s (num w n) :=
  is_iff.2 ⟨_, lit_eval w n s, rfl⟩

theorem is_var {δ : Type} {x : String} {v : Value} {s : Scope δ} : Is (.var x) (.single x v s) v.coerceMapped :=
  is_iff.2 ⟨v, var_single x v s, rfl⟩

theorem is_rel {δ : Type} {a b : Expr} {s : Scope δ} {w : BitWidth} {x y : Nat} (r : IntRel) (hx : x < 2 ^ w.bits)
    (hy : y < 2 ^ w.bits) (ha : Is a s (num w x)) (hb : Is b s (num w y)) :
    Is (.intRel r a b) s (.bool (Value.rel r x y)) := is_iff.2 ⟨_, rel_num r hx hy ha hb, rfl⟩

theorem is_within {δ : Type} {x : Expr} {s : Scope δ} {w : BitWidth} {n : Nat} (hn : n < 2 ^ w.bits)
    (h : Is x s (num w n)) (b : Bounds) : Is (isWithin x b) s (.bool (b.contains n)) := by
  obtain ⟨v, hv, hv'⟩ := is_iff.1 h
  refine is_iff.2 ⟨.bool (b.contains n), ?_, rfl⟩
  rw [isWithin, Expr.eval, bind_ok_eq hv, is_branch, matches_int hn hv']
  cases b.contains n with
  | true => rfl
  | false =>
    rw [if_neg (by simp), is_branch, matches_wildcard]
    rfl

theorem is_within_any {δ : Type} {x : Expr} {s : Scope δ} {w : BitWidth} {n : Nat} (hn : n < 2 ^ w.bits)
    (h : Is x s (num w n)) (bs : List Bounds) : Is (isWithinAny x bs) s (.bool (bs.any (·.contains n))) := by
  obtain ⟨v, hv, hv'⟩ := is_iff.1 h
  refine is_iff.2 ⟨.bool (bs.any (·.contains n)), ?_, rfl⟩
  rw [isWithinAny, Expr.eval, bind_ok_eq hv]
  induction bs with
  | nil => rw [List.map_nil, List.nil_append, is_branch, matches_wildcard]; rfl
  | cons b bs ih =>
    rw [List.map_cons, List.cons_append, is_branch, matches_int hn hv', List.any_cons]
    cases b.contains n with
    | true => rfl
    | false => rw [if_neg (by simp), Bool.false_or]; exact ih

theorem is_if {δ : Type} {c t e : Expr} {s : Scope δ} {b : Bool} {v : Value} (hc : Is c s (.bool b))
    (hv : Is (if b then t else e) s v) : Is (ifElse c t e) s v := by
  obtain ⟨u, hu, hu'⟩ := is_iff.1 hc
  obtain ⟨x, hx, rfl⟩ := is_iff.1 hv
  refine is_iff.2 ⟨x.coerceMapped, ?_, mapped_twice x⟩
  rw [ifElse, Expr.eval, bind_ok_eq hu, is_branch, matches_bool hu']
  cases b with
  | true =>
    rw [if_pos rfl]
    dsimp only
    rw [eval_nil]; exact bind_ok_eq hx
  | false =>
    rw [if_neg (by simp)]
    dsimp only
    rw [is_branch, matches_bool hu', if_pos rfl]
    dsimp only
    rw [eval_nil]; exact bind_ok_eq hx

theorem items_length (q : Value.ValueSeq) : q.items.length = q.len := by
  cases q with
  | vals s => cases s <;> simp [Value.ValueSeq.items, Value.ValueSeq.len, SeqKind.iter, SeqKind.len]
  | range a b => simp [Value.ValueSeq.items, Value.ValueSeq.len]

theorem is_length {δ : Type} {q : Expr} {s : Scope δ} {v : Value} {xs : List Value} (h : Is q s v) (hl : Lists v xs)
    (hn : xs.length < 2 ^ 32) : Is (.seqLength q) s (num .b32 xs.length) := by
  obtain ⟨u, hu, rfl⟩ := is_iff.1 h
  obtain ⟨l, hl, rfl⟩ := hl
  rw [items_length] at hn ⊢
  refine is_iff.2 ⟨num .b32 l.len, ?_, rfl⟩
  rw [Expr.eval, bind_ok_eq hu]
  unfold Expr.lengthOf
  rw [hl]
  dsimp only
  rw [show l.len % u32Card = l.len from Nat.mod_eq_of_lt hn, mkNum_eq hn]

theorem is_index {δ : Type} {q i : Expr} {s : Scope δ} {v : Value} {xs : List Value} {n : Nat} {x : Value}
    {w : BitWidth} (h : Is q s v) (hl : Lists v xs) (hi : Is i s (num w n)) (hn : n < 2 ^ w.bits)
    (hx : xs[n]? = some x) : Is (.seqIx q i) s x.coerceMapped := by
  obtain ⟨u, hu, rfl⟩ := is_iff.1 h
  obtain ⟨j, hj, hj'⟩ := is_iff.1 hi
  obtain ⟨l, hl, rfl⟩ := hl
  refine is_iff.2 ⟨x, ?_, rfl⟩
  rw [Expr.eval, bind_ok_eq hu, bind_ok_eq hj, hj', num_eq hn]
  refine (bind_ok_eq (a := n) rfl).trans ?_
  unfold Expr.indexOf
  rw [hl]
  cases l with
  | vals k =>
    dsimp only
    exact ((SeqKind.C27_index k k.iter ((SeqKind.C27_denotes_unique k _).2 rfl) n).1 x).2 hx
  | range a b =>
    dsimp only
    rw [Value.ValueSeq.items, List.getElem?_map] at hx
    obtain ⟨y, hy, rfl⟩ := Option.map_eq_some_iff.1 hx
    obtain ⟨hlt, hy⟩ := List.getElem?_eq_some_iff.1 hy
    rw [List.length_range'] at hlt
    rw [List.getElem_range'] at hy
    rw [if_pos (by omega), ← hy, Nat.one_mul]

theorem is_some {δ : Type} {e : Expr} {s : Scope δ} {v : Value} (h : Is e s v) : Is (.liftSome e) s (.optSome v) := by
  obtain ⟨u, hu, rfl⟩ := is_iff.1 h
  refine is_iff.2 ⟨.optSome u.coerceMapped, ?_, rfl⟩
  rw [Expr.eval, bind_ok_eq hu]

theorem is_none {δ : Type} {s : Scope δ} : Is .liftNone s .optNone := is_iff.2 ⟨_, by rw [Expr.eval], rfl⟩

end Helper
end Doodle
