import Verif.Lemmas.GenExpr
import Verif.Lemmas.Parser

/-! Scopes of the interpreter and of generated code that agree, and what expressions and views evaluate to in them. -/

namespace Doodle
namespace Gen

open Rt (Parser addUsize_eq_ok)

/-- a view of the interpreter, which keeps the bytes before it, and one of generated code, which does not -/
def ViewSim (c w : ReadCtxt) : Prop :=
  c.offset = w.offset ∧ (∃ pre, pre.length = w.offset ∧ c.input = pre ++ w.input) ∧
  8 * w.input.length < usizeCard ∧ w.offset + w.input.length < usizeCard

/-- a decoder the interpreter has compiled from a Huffman code, and the tree of the generated code: both read the same
symbol, or both fail -/
def DynSim (d : Decoder) (f : Option Huffman.Node) : Prop :=
  ∃ t, f = some t ∧ ∀ (env : Doodle.Env) (scope : Scope Decoder) (c : ReadCtxt) (k : Nat), 4 ≤ k →
    (∀ n rest, t.parseOne (c.input.drop c.offset) = .ok n rest → ∃ i v off,
      Decoder.parse env k d scope c = .ok ⟨(.branch i (.mapped v (.num (.fixed .b16) (Fin.ofNat _ n))), ⟨c.input, off⟩), []⟩ ∧
      off ≤ c.input.length ∧ c.input.drop off = rest) ∧
    ((∀ n rest, t.parseOne (c.input.drop c.offset) ≠ .ok n rest) → ∃ e, Decoder.parse env k d scope c = .err e)

/-- a scope of the interpreter and one of generated code, which has more variables -/
structure SRel (s : Scope Decoder) (g : Env) : Prop where
  clean : ∀ x v, s.getValue x = some v → Clean v
  values : ∀ x, reserved x = false → g.getValue x = (s.getValue x).map erase
  views : ∀ x, OLe ViewSim (s.getView x) (g.getView x)
  decoders : ∀ x, OLe DynSim (s.getDecoder x) (g.getDecoder x)

/-- every value erased -/
def eraseScope {δ : Type} : Scope δ → Scope Unit
  | .empty => .empty
  | .multi es parent =>
    .multi (es.map fun e => (e.1, match e.2 with | .value v => .value (erase v) | .view c => .view c)) (eraseScope parent)
  | .single n v parent => .single n (erase v) (eraseScope parent)
  | .decoder _ _ parent => eraseScope parent
  | .view _ _ parent => eraseScope parent

theorem findValue_erase (x : String) : ∀ es : List (String × ViewOrValue),
    Scope.findValue x (es.map fun e => (e.1, match e.2 with | .value v => .value (erase v) | .view c => .view c)) =
      (Scope.findValue x es).map erase
  | [] => rfl
  | (n, .value v) :: es => by
    simp only [List.map_cons, Scope.findValue]
    split
    · rfl
    · exact findValue_erase x es
  | (n, .view c) :: es => by
    simp only [List.map_cons, Scope.findValue]
    split
    · exact findValue_erase x es
    · exact findValue_erase x es

theorem eraseScope_get {δ : Type} (x : String) : ∀ s : Scope δ, (eraseScope s).getValue x = (s.getValue x).map erase
  | .empty => rfl
  | .multi es parent => by
    simp only [eraseScope, Scope.getValue, ← List.map_reverse, findValue_erase, eraseScope_get x parent]
    cases Scope.findValue x es.reverse <;> rfl
  | .single n v parent => by
    simp only [eraseScope, Scope.getValue, eraseScope_get x parent]
    split <;> rfl
  | .decoder _ _ parent => by simp only [eraseScope, Scope.getValue, eraseScope_get x parent]
  | .view _ _ parent => by simp only [eraseScope, Scope.getValue, eraseScope_get x parent]

theorem SRel.erased {s : Scope Decoder} {g : Env} (h : SRel s g) : SR s (eraseScope s) := by
  intro x
  rw [eraseScope_get]
  cases h1 : s.getValue x with
  | none => trivial
  | some v => exact ⟨h.clean x v h1, rfl⟩

section
variable {s : Scope Decoder} {g : Env} (h : SRel s g) {e : Expr} (he : ExprOk e)
include h he

theorem eval_eq : e.eval g = e.eval (eraseScope s) := by
  refine eval_congr e g (eraseScope s) fun x hx => ?_
  rw [eraseScope_get]
  refine h.values x ?_
  cases hr : reserved x with
  | false => rfl
  | true => exact absurd hx (he.2 x hr)

theorem eval_ok : PLe ER (e.eval s) (e.eval g) := by
  rw [eval_eq h he]; exact eval_er e he.1 h.erased

theorem evalValue_ok : PLe ER (e.evalValue s) (e.evalValue g) :=
  (eval_ok h he).bind fun _ _ hv => .ok hv.coerce

/-- the head of a `match` is not coerced by the interpreter -/
theorem evalHead_ok : PLe ER (e.eval s) (e.evalValue g) := by
  intro v hv
  obtain ⟨w, h1, h2⟩ := eval_ok h he v hv
  refine ⟨w.coerceMapped, ?_, h2.1, ?_⟩
  · unfold Expr.evalValue; rw [h1]; rfl
  · rw [h2.2, coerceMapped_erase]

theorem evalLambda_ok {v w : Value} (hv : ER v w) : PLe ER (e.evalLambda s v) (e.evalLambda g w) := by
  rw [evalLambda_congr e g (eraseScope s) (fun x hx => by
    rw [eraseScope_get]
    refine h.values x ?_
    cases hr : reserved x with
    | false => rfl
    | true => exact absurd hx (he.2 x hr)) w]
  exact evalLambda_er e he.1 h.erased hv

theorem evalUsize_ok : PLe (fun a b => b = a) (Decoder.evalUsize e s) (Decoder.evalUsize e g) :=
  (evalValue_ok h he).bind fun v w hv => by rw [hv.2]; exact unwrapUsize_er

theorem evalBool_ok : PLe (fun a b => b = a) (Decoder.evalBool e s) (Decoder.evalBool e g) :=
  (evalValue_ok h he).bind fun v w hv => by rw [hv.2]; exact unwrapBool_er

theorem lambdaBool_ok {v w : Value} (hv : ER v w) :
    PLe (fun a b => b = a) (Decoder.lambdaBool e s v) (Decoder.lambdaBool e g w) :=
  (evalLambda_ok h he hv).bind fun v w hv => by rw [hv.2]; exact unwrapBool_er

theorem huffmanTable_ok : PLe (fun a b => b = a) (do let v ← e.eval s; Decoder.valueToVecUsize v)
    (do let v ← e.eval g; Decoder.valueToVecUsize v) :=
  (eval_ok h he).bind fun v w hv => by
    rw [hv.2]
    cases v with
    | seq q =>
      have hl : ∀ (l : List Value) (ns : List Nat), Decoder.usizeList l = .ok ns →
          Decoder.usizeList (l.map erase) = .ok ns := by
        intro l
        induction l with
        | nil => intro ns h; exact h
        | cons v l ih =>
          intro ns h
          simp only [Decoder.usizeList] at h
          split at h
          · next n hn =>
            obtain ⟨ns', h1, h2⟩ := Panicky.bind_eq_ok.mp h
            cases h2
            have he : (erase v).coerceMapped = .num (.fixed .b8) n := by
              rw [coerceMapped_erase, ← erase_coerceMapped, hn]; rfl
            simp only [List.map_cons, Decoder.usizeList, he, ih ns' h1]
            rfl
          · cases h
      simp only [erase, Decoder.valueToVecUsize, iter_erase]
      exact fun a ha => ⟨a, hl _ a ha, rfl⟩
    | _ => exact .panic

theorem evalItems_ok : PLe ERL (Decoder.evalItems e s) (Decoder.evalItems e g) :=
  (evalValue_ok h he).bind fun v w hv => by rw [hv.2]; exact items_er hv.1

end

/-! ### larger scopes -/

theorem SRel.empty : SRel .empty .empty :=
  ⟨(fun _ _ h => by cases h), (fun _ _ => rfl), (fun _ => trivial), (fun _ => trivial)⟩

theorem SRel.single {s : Scope Decoder} {g : Env} (h : SRel s g) {n : String} {v w : Value} (hv : ER v w) :
    SRel (.single n v s) (.single n w g) := by
  refine ⟨?_, ?_, h.views, h.decoders⟩
  · intro x u hu
    simp only [Scope.getValue] at hu
    split at hu
    · cases hu; exact hv.1
    · exact h.clean x u hu
  · intro x hx
    simp only [Scope.getValue]
    split
    · rw [hv.2]; rfl
    · exact h.values x hx

/-- a variable of generated code itself -/
theorem SRel.hidden {s : Scope Decoder} {g : Env} (h : SRel s g) {n : String} {w : Value} (hn : reserved n = true) :
    SRel s (.single n w g) := by
  refine ⟨h.clean, ?_, h.views, h.decoders⟩
  intro x hx
  simp only [Scope.getValue]
  split
  · next hnx => rw [hnx, hx] at hn; cases hn
  · exact h.values x hx

theorem SRel.withBindings {s : Scope Decoder} {g : Env} (h : SRel s g) {bs bs' : List (String × Value)} (hb : EB bs bs') :
    SRel (s.withBindings bs) (g.withBindings bs') := by
  have key : ∀ x, OLe ER (Scope.findValue x (bs.map fun b => (b.1, ViewOrValue.value b.2)).reverse)
      (Scope.findValue x (bs'.map fun b => (b.1, ViewOrValue.value b.2)).reverse) := by
    intro x
    have h1 := findValue_er x hb.reverse
    rw [List.map_reverse, List.map_reverse] at h1
    exact h1
  have hview : ∀ x (cs : List (String × Value)),
      Scope.findView x (cs.map fun b => (b.1, ViewOrValue.value b.2)) = none := by
    intro x cs
    induction cs with
    | nil => rfl
    | cons c cs ih => simp only [List.map_cons, Scope.findView]; split <;> exact ih
  refine ⟨?_, ?_, ?_, h.decoders⟩
  · intro x u hu
    simp only [Scope.withBindings, Scope.getValue] at hu
    obtain ⟨h2, h3⟩ | ⟨a, b, h2, h3, h4⟩ := (key x).both
    · rw [h2] at hu; exact h.clean x u hu
    · rw [h2] at hu; cases hu; exact h4.1
  · intro x hx
    simp only [Scope.withBindings, Scope.getValue]
    obtain ⟨h2, h3⟩ | ⟨a, b, h2, h3, h4⟩ := (key x).both
    · rw [h2, h3]; exact h.values x hx
    · rw [h2, h3, h4.2]; rfl
  · intro x
    simp only [Scope.withBindings, Scope.getView, ← List.map_reverse, hview]
    exact h.views x

theorem SRel.view {s : Scope Decoder} {g : Env} (h : SRel s g) {n : String} {c w : ReadCtxt} (hv : ViewSim c w) :
    SRel (.view n c s) (.view n w g) := by
  refine ⟨h.clean, h.values, ?_, h.decoders⟩
  intro x
  simp only [Scope.getView]
  split
  · exact hv
  · exact h.views x

theorem SRel.decoder {s : Scope Decoder} {g : Env} (h : SRel s g) {n : String} {d : Decoder} {f : Option Huffman.Node}
    (hd : DynSim d f) : SRel (.decoder n d s) (.decoder n f g) := by
  refine ⟨h.clean, h.values, h.views, ?_⟩
  intro x
  simp only [Scope.getDecoder]
  split
  · exact hd
  · exact h.decoders x

/-- an argument of a call on both sides -/
def ArgRel : String × ViewOrValue → String × ViewOrValue → Prop
  | (n, .value v), (m, .value w) => m = n ∧ ER v w
  | (n, .view c), (m, .view d) => m = n ∧ ViewSim c d
  | _, _ => False

/-- the arguments of a call on both sides -/
inductive ArgsRel : List (String × ViewOrValue) → List (String × ViewOrValue) → Prop
  | nil : ArgsRel [] []
  | cons {a b as bs} : ArgRel a b → ArgsRel as bs → ArgsRel (a :: as) (b :: bs)

theorem ArgsRel.append {as bs as' bs' : List (String × ViewOrValue)} (h : ArgsRel as bs) (h' : ArgsRel as' bs') :
    ArgsRel (as ++ as') (bs ++ bs') := by
  induction h with
  | nil => exact h'
  | cons h1 _ ih => exact .cons h1 ih

theorem ArgsRel.reverse {as bs : List (String × ViewOrValue)} (h : ArgsRel as bs) : ArgsRel as.reverse bs.reverse := by
  induction h with
  | nil => exact .nil
  | cons h1 _ ih => rw [List.reverse_cons, List.reverse_cons]; exact ih.append (.cons h1 .nil)

theorem ArgsRel.value {as bs : List (String × ViewOrValue)} (h : ArgsRel as bs) (x : String) :
    OLe ER (Scope.findValue x as) (Scope.findValue x bs) := by
  induction h with
  | nil => trivial
  | @cons a b as bs h1 _ ih =>
    match a, b, h1 with
    | (n, .value v), (_, .value w), ⟨rfl, h2⟩ =>
      simp only [Scope.findValue]
      split
      · exact h2
      · exact ih
    | (n, .view c), (_, .view d), ⟨rfl, h2⟩ =>
      simp only [Scope.findValue]
      split <;> exact ih

theorem ArgsRel.view {as bs : List (String × ViewOrValue)} (h : ArgsRel as bs) (x : String) :
    OLe ViewSim (Scope.findView x as) (Scope.findView x bs) := by
  induction h with
  | nil => trivial
  | @cons a b as bs h1 _ ih =>
    match a, b, h1 with
    | (n, .value v), (_, .value w), ⟨rfl, h2⟩ =>
      simp only [Scope.findView]
      split <;> exact ih
    | (n, .view c), (_, .view d), ⟨rfl, h2⟩ =>
      simp only [Scope.findView]
      split
      · exact h2
      · exact ih

theorem ArgsRel.scope {as bs : List (String × ViewOrValue)} (h : ArgsRel as bs) :
    SRel (.multi as .empty) (.multi bs .empty) := by
  refine ⟨?_, ?_, ?_, fun _ => trivial⟩
  · intro x u hu
    simp only [Scope.getValue] at hu
    obtain ⟨h2, h3⟩ | ⟨a, b, h2, h3, h4⟩ := (h.reverse.value x).both
    · rw [h2] at hu; cases hu
    · rw [h2] at hu; cases hu; exact h4.1
  · intro x _
    simp only [Scope.getValue]
    obtain ⟨h2, h3⟩ | ⟨a, b, h2, h3, h4⟩ := (h.reverse.value x).both
    · rw [h2, h3]; rfl
    · rw [h2, h3, h4.2]; rfl
  · intro x
    simp only [Scope.getView]
    obtain ⟨h2, h3⟩ | ⟨a, b, h2, h3, h4⟩ := (h.reverse.view x).both
    · rw [h2, h3]; exact trivial
    · rw [h2, h3]; exact h4

/-! ### names -/

theorem digits_toString (i : Nat) : (toString i).toList.all Char.isDigit = true := by
  rw [List.all_eq_true]
  intro c hc
  rw [Nat.toString_eq_repr, Nat.toList_repr] at hc
  exact Nat.isDigit_of_mem_toDigits (by omega) (by omega) hc

theorem reserved_ix (i : Nat) : reserved ("ix" ++ toString i) = true := by
  have h : ("ix" ++ toString i).toList = 'i' :: 'x' :: (toString i).toList := by simp
  unfold reserved
  rw [h]
  exact digits_toString i

theorem reserved_arg (i : Nat) : reserved ("arg" ++ toString i) = true := by
  have h : ("arg" ++ toString i).toList = 'a' :: 'r' :: 'g' :: (toString i).toList := by simp
  unfold reserved
  rw [h]
  exact digits_toString i

theorem SRel.accum {s : Scope Decoder} {g : Env} (h : SRel s g) (vs : List Value) : SRel s (accum vs g) :=
  h.hidden (by decide +kernel)

/-! ### views -/

theorem evalView_ok {s : Scope Decoder} {g : Env} (h : SRel s g) (p : Parser) : ∀ {v : ViewExpr}, ViewOk v →
    (∀ c, Decoder.evalView s v = .ok c → ∃ w, evalView g p v = .ok w p ∧ ViewSim c w) ∧
    (∀ e, Decoder.evalView s v = .err e → ∃ e', evalView g p v = .err e' p)
  | .var name, _ => by
    obtain ⟨h2, h3⟩ | ⟨a, b, h2, h3, h4⟩ := (h.views name).both
    · simp only [Decoder.evalView, h2, Panicky.unwrap, Outcome.ofPanicky]
      exact ⟨(fun _ h => nomatch h), (fun _ h => nomatch h)⟩
    · simp only [Decoder.evalView, evalView, h2, h3, Panicky.unwrap, Outcome.ofPanicky, Res.pure]
      exact ⟨(fun c hc => by cases hc; exact ⟨b, rfl, h4⟩), (fun _ h => nomatch h)⟩
  | .offset base e, ⟨hb, he⟩ => by
    obtain ⟨ih1, ih2⟩ := evalView_ok h p hb
    have hu := evalUsize_ok h he
    simp only [Decoder.evalView, evalView]
    cases h1 : Decoder.evalUsize e s with
    | panic =>
      unfold Decoder.evalUsize at h1
      cases h2 : e.evalValue s with
      | panic => exact ⟨(fun _ h => nomatch h), (fun _ h => nomatch h)⟩
      | ok v =>
        rw [h2] at h1
        have h3 : v.unwrapUsize = .panic := h1
        simp only [Outcome.ofPanicky, Outcome.bind_ok, h3]
        exact ⟨(fun _ h => nomatch h), (fun _ h => nomatch h)⟩
    | ok off =>
      obtain ⟨off', h4, h5⟩ := hu off h1
      subst h5
      obtain ⟨v, h2, h3⟩ := Panicky.bind_eq_ok.mp h1
      simp only [h2, h3, h4, Outcome.ofPanicky, Outcome.bind_ok]
      cases h6 : Decoder.evalView s base with
      | panic => exact ⟨(fun _ h => nomatch h), (fun _ h => nomatch h)⟩
      | fuel => exact ⟨(fun _ h => nomatch h), (fun _ h => nomatch h)⟩
      | err er =>
        obtain ⟨e', h7⟩ := ih2 er h6
        rw [h7]
        exact ⟨(fun _ h => nomatch h), (fun _ _ => ⟨e', rfl⟩)⟩
      | ok c =>
        obtain ⟨w, h7, hc, ⟨pre, hp1, hp2⟩, hl1, hl2⟩ := ih1 c h6
        simp only [h7, Res.bind, Res.pure, Outcome.bind_ok, ReadCtxt.splitAt]
        have hlen : c.input.length = w.offset + w.input.length := by rw [hp2, List.length_append, hp1]
        cases h8 : addUsize c.offset off' with
        | panic => exact ⟨(fun _ h => nomatch h), (fun _ h => nomatch h)⟩
        | ok en =>
          obtain ⟨rfl, h9⟩ := addUsize_eq_ok h8
          simp only
          by_cases hle : c.offset + off' ≤ c.input.length
          · have hle' : off' ≤ w.input.length := by omega
            rw [if_pos hle, if_neg (by omega)]
            refine ⟨?_, (fun _ h => nomatch h)⟩
            intro c' hc'
            cases hc'
            refine ⟨_, rfl, ?_⟩
            unfold ViewSim
            simp only [hc, List.length_drop]
            refine ⟨trivial, ⟨pre ++ w.input.take off', ?_, ?_⟩, by omega, by omega⟩
            · rw [List.length_append, hp1, List.length_take]; omega
            · rw [hp2, List.append_assoc, List.take_append_drop]
          · rw [if_neg hle, if_pos (by omega)]
            exact ⟨(fun _ h => nomatch h), (fun _ _ => ⟨_, rfl⟩)⟩

theorem evalArgs_ok {s : Scope Decoder} {g : Env} (h : SRel s g) : ∀ {args : List (String × Expr)},
    (∀ a ∈ args, ExprOk a.2) → ∀ {es}, Decoder.evalArgs s args = .ok es →
    ∃ es', evalArgs g args = .ok es' ∧ ArgsRel es es'
  | [], _, es, he => by cases he; exact ⟨[], rfl, .nil⟩
  | (n, e) :: args, ha, es, he => by
    simp only [Decoder.evalArgs] at he
    obtain ⟨v, h1, h2⟩ := Outcome.bind_eq_ok.mp he
    obtain ⟨r, h3, h4⟩ := Outcome.bind_eq_ok.mp h2
    cases h4
    obtain ⟨w, h5, h6⟩ := evalValue_ok h (ha (n, e) (by simp)) v (Outcome.ofPanicky_eq_ok.mp h1)
    obtain ⟨r', h7, h8⟩ := evalArgs_ok h (fun a hm => ha a (List.mem_cons_of_mem _ hm)) h3
    exact ⟨(n, .value w) :: r', by simp only [evalArgs, h5, h7]; rfl, .cons ⟨rfl, h6⟩ h8⟩

theorem evalArgs_noErr {s : Scope Decoder} : ∀ {args : List (String × Expr)} {e},
    Decoder.evalArgs s args ≠ .err e
  | [], _, h => by cases h
  | (n, x) :: args, e, h => by
    simp only [Decoder.evalArgs] at h
    cases h1 : x.evalValue s with
    | panic => rw [h1] at h; cases h
    | ok v =>
      rw [h1] at h
      simp only [Outcome.ofPanicky, Outcome.bind_ok] at h
      cases h2 : Decoder.evalArgs s args with
      | ok r => rw [h2] at h; cases h
      | err e' => exact evalArgs_noErr h2
      | panic => rw [h2] at h; cases h
      | fuel => rw [h2] at h; cases h

theorem evalViewArgs_ok {s : Scope Decoder} {g : Env} (h : SRel s g) (p : Parser) : ∀ {views : List (String × ViewExpr)},
    (∀ v ∈ views, ViewOk v.2) →
    (∀ es, Decoder.evalViewArgs s views = .ok es → ∃ es', evalViewArgs g p views = .ok es' p ∧ ArgsRel es es') ∧
    (∀ e, Decoder.evalViewArgs s views = .err e → ∃ e', evalViewArgs g p views = .err e' p)
  | [], _ => ⟨(fun es he => by cases he; exact ⟨[], rfl, .nil⟩), (fun _ h => nomatch h)⟩
  | (n, v) :: views, hv => by
    obtain ⟨h1, h2⟩ := evalView_ok h p (hv (n, v) (by simp))
    obtain ⟨h3, h4⟩ := evalViewArgs_ok h p (views := views) (fun a hm => hv a (List.mem_cons_of_mem _ hm))
    simp only [Decoder.evalViewArgs, evalViewArgs]
    cases h5 : Decoder.evalView s v with
    | panic => exact ⟨(fun _ h => nomatch h), (fun _ h => nomatch h)⟩
    | fuel => exact ⟨(fun _ h => nomatch h), (fun _ h => nomatch h)⟩
    | err er =>
      obtain ⟨e', h6⟩ := h2 er h5
      rw [h6]
      exact ⟨(fun _ h => nomatch h), (fun _ _ => ⟨e', rfl⟩)⟩
    | ok c =>
      obtain ⟨w, h6, h7⟩ := h1 c h5
      rw [h6]
      simp only [Res.bind, Outcome.bind_ok]
      cases h8 : Decoder.evalViewArgs s views with
      | panic => exact ⟨(fun _ h => nomatch h), (fun _ h => nomatch h)⟩
      | fuel => exact ⟨(fun _ h => nomatch h), (fun _ h => nomatch h)⟩
      | err er =>
        obtain ⟨e', h9⟩ := h4 er h8
        rw [h9]
        exact ⟨(fun _ h => nomatch h), (fun _ _ => ⟨e', rfl⟩)⟩
      | ok r =>
        obtain ⟨r', h9, h10⟩ := h3 r h8
        rw [h9]
        exact ⟨(fun es he => by cases he; exact ⟨(n, .view w) :: r', rfl, .cons ⟨rfl, h7⟩ h10⟩), (fun _ h => nomatch h)⟩

end Gen
end Doodle
