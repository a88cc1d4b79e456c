import Verif.Lemmas.LocExpr
import Verif.Props.Decode

/-! Simulation of plain decoding by location-tracking decoding. -/

namespace Doodle
namespace Loc

variable {u : Uses}

/-! ### Results of expressions that are not looked up -/

theorem mkNum_settled {k : UKind} {n : Nat} {v : Value} (h : Value.mkNum k n = .ok v) : v.coerceMapped = v := by
  unfold Value.mkNum at h
  split at h
  · cases h; rfl
  · cases h

theorem arithNum_settled {op : Arith} {k : UKind} {l r : Nat} {v : Value}
    (h : Value.arithNum op k l r = .ok v) : v.coerceMapped = v := by
  cases op <;> simp only [Value.arithNum] at h <;> first
    | exact mkNum_settled h
    | cases h
    | (split at h <;> first | exact mkNum_settled h | cases h)

theorem arith_settled {op : Arith} {x y v : Value} (h : Value.arith op x y = .ok v) : v.coerceMapped = v := by
  unfold Value.arith at h
  split at h
  · split at h
    · cases h; rfl
    · cases h
  · split at h
    · cases h; rfl
    · cases h
  · split at h
    · split at h
      · exact arithNum_settled h
      · cases h
    · cases h

theorem unary_settled {op : UnaryOp} {x v : Value} (h : Value.unary op x = .ok v) : v.coerceMapped = v := by
  cases op <;> cases x <;> simp only [Value.unary] at h <;> first
    | (cases h; done)
    | (cases h; rfl)
    | exact mkNum_settled h
    | (split at h <;> first | exact mkNum_settled h | cases h)

theorem leftFold_settled {f : Value → Panicky Value} (hf : ∀ a v, f a = .ok v → v.coerceMapped = v) :
    ∀ {vs : List Value} {a v : Value}, a.coerceMapped = a → Expr.leftFoldLoop f a vs = .ok v → v.coerceMapped = v := by
  intro vs
  induction vs with
  | nil => intro a v ha h; cases h; exact ha
  | cons x vs ih =>
    intro a v ha h
    simp only [Expr.leftFoldLoop] at h
    obtain ⟨b, h1, h2⟩ := Panicky.bind_eq_ok.1 h
    exact ih (hf _ _ h1) h2

theorem evalLambda_settled {δ : Type} {e : Expr} {s : Scope δ} {a v : Value} (h : e.evalLambda s a = .ok v) :
    v.coerceMapped = v := by
  cases e <;> simp only [Expr.evalLambda] at h <;> first | (cases h; done) | skip
  obtain ⟨b, h1, h2⟩ := Panicky.bind_eq_ok.1 h
  cases h2
  exact coerceMapped_idem _

theorem evalBranches_settled {δ : Type} {bs : List (Pattern × Expr)} {s : Scope δ} {a v : Value}
    (h : Expr.evalBranches bs s a = .ok v) : v.coerceMapped = v := by
  induction bs with
  | nil => simp only [Expr.evalBranches] at h; cases h
  | cons b bs ih =>
    obtain ⟨p, e⟩ := b
    simp only [Expr.evalBranches] at h
    split at h
    · obtain ⟨b, h1, h2⟩ := Panicky.bind_eq_ok.1 h
      cases h2
      exact coerceMapped_idem _
    · exact ih h

/-- An expression that builds its result never yields a wrapped value. -/
theorem Builds.settled {e : Expr} (hb : Builds e) {δ : Type} {s : Scope δ} {v : Value} (h : e.eval s = .ok v) :
    v.coerceMapped = v := by
  cases e <;> simp only [Expr.eval] at h <;> first | exact hb.elim | (cases h; done) | (cases h; rfl) | skip
  case numeric n =>
    unfold Expr.numericResult at h
    split at h
    · cases h; rfl
    · cases h
  case tuple => obtain ⟨_, _, h⟩ := Panicky.bind_eq_ok.1 h; cases h; rfl
  case record => obtain ⟨_, _, h⟩ := Panicky.bind_eq_ok.1 h; cases h; rfl
  case variant => obtain ⟨_, _, h⟩ := Panicky.bind_eq_ok.1 h; cases h; rfl
  case seq => obtain ⟨_, _, h⟩ := Panicky.bind_eq_ok.1 h; cases h; rfl
  case match_ => obtain ⟨_, _, h⟩ := Panicky.bind_eq_ok.1 h; exact evalBranches_settled h
  case destructure =>
    obtain ⟨_, _, h⟩ := Panicky.bind_eq_ok.1 h
    split at h
    · obtain ⟨_, _, h⟩ := Panicky.bind_eq_ok.1 h
      cases h; exact coerceMapped_idem _
    · cases h
  case intRel =>
    obtain ⟨_, _, h⟩ := Panicky.bind_eq_ok.1 h
    obtain ⟨_, _, h⟩ := Panicky.bind_eq_ok.1 h
    obtain ⟨b, rfl⟩ := intRel_bool h; rfl
  case arith =>
    obtain ⟨_, _, h⟩ := Panicky.bind_eq_ok.1 h
    obtain ⟨_, _, h⟩ := Panicky.bind_eq_ok.1 h
    exact arith_settled h
  case unary => obtain ⟨_, _, h⟩ := Panicky.bind_eq_ok.1 h; exact unary_settled h
  case asNum =>
    obtain ⟨_, _, h⟩ := Panicky.bind_eq_ok.1 h
    unfold Expr.castTo at h
    split at h
    · exact mkNum_settled h
    · cases h
  case asChar =>
    obtain ⟨_, _, h⟩ := Panicky.bind_eq_ok.1 h
    unfold Expr.castChar at h
    split at h
    · split at h
      · cases h; rfl
      · cases h
    · cases h
  case fromBytes =>
    obtain ⟨_, _, h⟩ := Panicky.bind_eq_ok.1 h
    unfold Expr.wordOf at h
    split at h
    · split at h
      · split at h
        · exact mkNum_settled h
        · cases h
      · cases h
    · cases h
  case seqLength =>
    obtain ⟨_, _, h⟩ := Panicky.bind_eq_ok.1 h
    unfold Expr.lengthOf at h
    split at h
    · exact mkNum_settled h
    · cases h
  case subSeq =>
    obtain ⟨_, _, h⟩ := Panicky.bind_eq_ok.1 h
    obtain ⟨_, _, h⟩ := Panicky.bind_eq_ok.1 h
    obtain ⟨_, _, h⟩ := Panicky.bind_eq_ok.1 h
    obtain ⟨_, _, h⟩ := Panicky.bind_eq_ok.1 h
    obtain ⟨_, _, h⟩ := Panicky.bind_eq_ok.1 h
    unfold Expr.subSeqOf at h
    split at h
    · obtain ⟨_, _, h⟩ := Panicky.bind_eq_ok.1 h
      cases h; rfl
    · obtain ⟨_, _, h⟩ := Panicky.bind_eq_ok.1 h
      obtain ⟨_, _, h⟩ := Panicky.bind_eq_ok.1 h
      obtain ⟨_, _, h⟩ := Panicky.bind_eq_ok.1 h
      cases h; rfl
    · cases h
  case subSeqInflate =>
    obtain ⟨_, _, h⟩ := Panicky.bind_eq_ok.1 h
    obtain ⟨_, _, h⟩ := Panicky.bind_eq_ok.1 h
    obtain ⟨_, _, h⟩ := Panicky.bind_eq_ok.1 h
    obtain ⟨_, _, h⟩ := Panicky.bind_eq_ok.1 h
    obtain ⟨_, _, h⟩ := Panicky.bind_eq_ok.1 h
    unfold Expr.inflateOf at h
    split at h
    · obtain ⟨_, _, h⟩ := Panicky.bind_eq_ok.1 h
      cases h; rfl
    · obtain ⟨_, _, h⟩ := Panicky.bind_eq_ok.1 h
      cases h; rfl
    · cases h
  case append =>
    obtain ⟨_, _, h⟩ := Panicky.bind_eq_ok.1 h
    obtain ⟨_, _, h⟩ := Panicky.bind_eq_ok.1 h
    unfold Expr.appendOf at h
    split at h
    · split at h
      · split at h
        · cases h; exact coerceMapped_idem _
        · split at h
          · cases h; exact coerceMapped_idem _
          · obtain ⟨_, _, h⟩ := Panicky.bind_eq_ok.1 h
            cases h; rfl
      · cases h
    · cases h
  case flatMap =>
    obtain ⟨_, _, h⟩ := Panicky.bind_eq_ok.1 h
    split at h
    · obtain ⟨_, _, h⟩ := Panicky.bind_eq_ok.1 h
      cases h; rfl
    · cases h
  case flatMapAccum =>
    obtain ⟨_, _, h⟩ := Panicky.bind_eq_ok.1 h
    obtain ⟨_, _, h⟩ := Panicky.bind_eq_ok.1 h
    obtain ⟨_, _, h⟩ := Panicky.bind_eq_ok.1 h
    obtain ⟨_, _, h⟩ := Panicky.bind_eq_ok.1 h
    cases h; rfl
  case leftFold =>
    obtain ⟨_, _, h⟩ := Panicky.bind_eq_ok.1 h
    obtain ⟨_, _, h⟩ := Panicky.bind_eq_ok.1 h
    obtain ⟨_, _, h⟩ := Panicky.bind_eq_ok.1 h
    exact leftFold_settled (fun a v h => evalLambda_settled h) (coerceMapped_idem _) h
  case findByKey =>
    obtain ⟨_, _, h⟩ := Panicky.bind_eq_ok.1 h
    obtain ⟨_, _, h⟩ := Panicky.bind_eq_ok.1 h
    obtain ⟨_, _, h⟩ := Panicky.bind_eq_ok.1 h
    unfold Expr.findByKeyOf at h
    simp only at h
    split at h
    · obtain ⟨_, _, h⟩ := Panicky.bind_eq_ok.1 h
      split at h
      · obtain ⟨_, _, h⟩ := Panicky.bind_eq_ok.1 h
        cases h; rfl
      · cases h; rfl
    · obtain ⟨_, _, h⟩ := Panicky.bind_eq_ok.1 h
      split at h
      · obtain ⟨_, _, h⟩ := Panicky.bind_eq_ok.1 h
        cases h; rfl
      · cases h; rfl
  case flatMapList =>
    obtain ⟨_, _, h⟩ := Panicky.bind_eq_ok.1 h
    obtain ⟨_, _, h⟩ := Panicky.bind_eq_ok.1 h
    obtain ⟨_, _, h⟩ := Panicky.bind_eq_ok.1 h
    cases h; rfl
  case dup =>
    obtain ⟨_, _, h⟩ := Panicky.bind_eq_ok.1 h
    obtain ⟨_, _, h⟩ := Panicky.bind_eq_ok.1 h
    obtain ⟨_, _, h⟩ := Panicky.bind_eq_ok.1 h
    cases h; rfl
  case enumFromTo =>
    obtain ⟨_, _, h⟩ := Panicky.bind_eq_ok.1 h
    obtain ⟨_, _, h⟩ := Panicky.bind_eq_ok.1 h
    obtain ⟨_, _, h⟩ := Panicky.bind_eq_ok.1 h
    obtain ⟨_, _, h⟩ := Panicky.bind_eq_ok.1 h
    obtain ⟨_, _, h⟩ := Panicky.bind_eq_ok.1 h
    obtain ⟨_, _, h⟩ := Panicky.bind_eq_ok.1 h
    cases h; rfl
  case liftSome => obtain ⟨_, _, h⟩ := Panicky.bind_eq_ok.1 h; cases h; rfl

/-- a bound expression: plain decoding unwraps nothing that location-tracking decoding keeps -/
theorem evalBound_rel {e : Expr} (hc : CommonBound u e) {s : LocScope Decoder} {s' : Scope Decoder}
    (hs : ScopeRel u s s') : PRel (Rel u) (e.evalLoc s) (e.evalValue s') := by
  unfold Expr.evalValue
  obtain ⟨h1, h2⟩ | ⟨p, v, h1, h2, h3⟩ := (eval_rel e hc.1 hs).both
  · rw [h1, h2]; trivial
  · rw [h1, h2]
    show Rel u p v.coerceMapped
    cases hw : u.wrap with
    | false => rw [h3.unwrapped hw]; exact h3
    | true => rw [(hc.2 hw).settled h2]; exact h3

theorem evalValue_rel {e : Expr} (hc : CommonExpr u e) {s : LocScope Decoder} {s' : Scope Decoder}
    (hs : ScopeRel u s s') : PRel (VRel u) (e.evalValueLoc s) (e.evalValue s') :=
  PRel.bind (eval_rel e hc hs) fun _ _ h => h.val

theorem evalUsize_rel {e : Expr} (hc : CommonExpr u e) {s : LocScope Decoder} {s' : Scope Decoder}
    (hs : ScopeRel u s s') : PRel (fun a b => a = b) (LocDecoder.evalUsize e s) (Decoder.evalUsize e s') :=
  PRel.bind (evalValue_rel hc hs) fun _ _ h => h.usize

theorem evalBool_rel {e : Expr} (hc : CommonExpr u e) {s : LocScope Decoder} {s' : Scope Decoder}
    (hs : ScopeRel u s s') : PRel (fun a b => a = b) (LocDecoder.evalBool e s) (Decoder.evalBool e s') :=
  PRel.bind (evalValue_rel hc hs) fun _ _ h => h.bool

theorem lambdaBool_rel {e : Expr} (hc : CommonExpr u e) {s : LocScope Decoder} {s' : Scope Decoder}
    (hs : ScopeRel u s s') {p : ParsedValue} {v : Value} (h : Rel u p v) :
    PRel (fun a b => a = b) (LocDecoder.lambdaBool e s p) (Decoder.lambdaBool e s' v) :=
  PRel.bind (evalLambda_rel e hc hs h) fun _ _ h => h.bool

/-! ### Results of decoding -/

/-- the same error -/
def ERel (e : LocErr) (e' : DecodeErr) : Prop := eraseErr e = flatErr e'

/-- both fine and related, or the same error, or both panic, or both out of fuel -/
def ORel {α β : Type} (r : α → β → Prop) : Outcome LocErr α → Outcome DecodeErr β → Prop
  | .ok a, .ok b => r a b
  | .err e, .err e' => ERel e e'
  | .panic, .panic => True
  | .fuel, .fuel => True
  | _, _ => False

theorem ORel.both {α β : Type} {r : α → β → Prop} {x : Outcome LocErr α} {y : Outcome DecodeErr β} (h : ORel r x y) :
    (∃ a b, x = .ok a ∧ y = .ok b ∧ r a b) ∨ (∃ e e', x = .err e ∧ y = .err e' ∧ ERel e e') ∨
      (x = .panic ∧ y = .panic) ∨ (x = .fuel ∧ y = .fuel) := by
  cases x <;> cases y <;> first | exact h.elim | skip
  · exact .inl ⟨_, _, rfl, rfl, h⟩
  · exact .inr (.inl ⟨_, _, rfl, rfl, h⟩)
  · exact .inr (.inr (.inl ⟨rfl, rfl⟩))
  · exact .inr (.inr (.inr ⟨rfl, rfl⟩))

theorem ORel.bind {α β γ δ : Type} {r : α → β → Prop} {q : γ → δ → Prop} {x : Outcome LocErr α}
    {y : Outcome DecodeErr β} {f : α → Outcome LocErr γ} {g : β → Outcome DecodeErr δ} (h : ORel r x y)
    (hf : ∀ a b, r a b → ORel q (f a) (g b)) : ORel q (x >>= f) (y >>= g) := by
  cases x <;> cases y <;> first | exact h.elim | exact hf _ _ h | trivial | exact h

theorem ORel.ofPanicky {α β : Type} {r : α → β → Prop} {x : Panicky α} {y : Panicky β} (h : PRel r x y) :
    ORel r (Outcome.ofPanicky x) (Outcome.ofPanicky y) := by
  cases x <;> cases y
  · exact h
  · exact h.elim
  · exact h.elim
  · trivial

theorem ORel.mono {α β : Type} {r q : α → β → Prop} {x : Outcome LocErr α} {y : Outcome DecodeErr β} (h : ORel r x y)
    (hm : ∀ a b, x = .ok a → y = .ok b → r a b → q a b) : ORel q x y := by
  cases x <;> cases y <;> first | exact h.elim | exact hm _ _ rfl rfl h | exact h

/-- a position inside its buffer -/
abbrev In (c : ReadCtxt) : Prop := c.offset ≤ c.input.length

/-- related parse results -/
structure PR (u : Uses) (w : LocParsed) (w' : Parsed) : Prop where
  val : Rel u w.value.1 w'.value.1
  pos : w.value.2 = w'.value.2
  errs : LRel ERel w.errs w'.errs

/-- related parse results, at a position not before `c` and inside the buffer -/
structure PRF (u : Uses) (c : ReadCtxt) (w : LocParsed) (w' : Parsed) : Prop extends PR u w w' where
  fwd : c.offset ≤ w'.value.2.offset
  inside : In w'.value.2

/-- related states of a loop started at `c` -/
structure AR (u : Uses) (c : ReadCtxt) (a : LocDecoder.Acc) (a' : Decoder.Acc) : Prop where
  vals : LRel (Rel u) a.value.1 a'.value.1
  pos : a.value.2 = a'.value.2
  errs : LRel ERel a.errs a'.errs
  fwd : c.offset ≤ a'.value.2.offset
  inside : In a'.value.2

theorem AR.start {c : ReadCtxt} (hc : In c) : AR u c (.new ([], c)) (.new ([], c)) :=
  ⟨.nil, rfl, .nil, Nat.le_refl _, hc⟩

theorem AR.push {c : ReadCtxt} {a : LocDecoder.Acc} {a' : Decoder.Acc} {w : LocParsed} {w' : Parsed}
    (h : AR u c a a') (hw : PRF u a'.value.2 w w') : AR u c (LocDecoder.push a w) (Decoder.push a' w') :=
  ⟨h.vals.snoc hw.val, hw.pos, hw.errs.append h.errs, Nat.le_trans h.fwd hw.fwd, hw.inside⟩

/-- related decoders -/
def DR (u : Uses) (p : ReadCtxt → Outcome LocErr LocParsed) (p' : ReadCtxt → Outcome DecodeErr Parsed) : Prop :=
  ∀ c, In c → ORel (PRF u c) (p c) (p' c)

section Loops
variable {p : ReadCtxt → Outcome LocErr LocParsed} {p' : ReadCtxt → Outcome DecodeErr Parsed}

theorem foldItems_rel {σ τ : Type} {q : σ → τ → Prop} {p : σ → ReadCtxt → Outcome LocErr LocParsed}
    {p' : τ → ReadCtxt → Outcome DecodeErr Parsed} {xs : List σ} {ys : List τ} (hl : LRel q xs ys) {c : ReadCtxt} :
    ∀ {a : LocDecoder.Acc} {a' : Decoder.Acc}, (∀ x y, q x y → DR u (p x) (p' y)) → AR u c a a' →
      ORel (AR u c) (LocDecoder.foldItems p xs a) (Decoder.foldItems p' ys a') := by
  induction hl with
  | nil => intro a a' _ h; exact h
  | cons h1 _ ih =>
    intro a a' hp h
    simp only [LocDecoder.foldItems, Decoder.foldItems]
    rw [h.pos]
    exact ORel.bind (hp _ _ h1 _ h.inside) fun w w' hw => ih hp (h.push hw)

variable (hp : DR u p p')
include hp

theorem whileLoop_rel (t : MatchTree) {c : ReadCtxt} : ∀ n {a : LocDecoder.Acc} {a' : Decoder.Acc}, AR u c a a' →
    ORel (AR u c) (LocDecoder.whileLoop t p n a) (Decoder.whileLoop t p' n a')
  | 0, _, _, _ => trivial
  | n + 1, a, a', h => by
    simp only [LocDecoder.whileLoop, Decoder.whileLoop]
    rw [h.pos]
    rcases t.matches a'.value.2 with _ | _ | k
    · rfl
    · exact ORel.bind (hp _ h.inside) fun w w' hw => whileLoop_rel t n (h.push hw)
    · exact h

theorem untilLoop_rel (t : MatchTree) {c : ReadCtxt} : ∀ n {a : LocDecoder.Acc} {a' : Decoder.Acc}, AR u c a a' →
    ORel (AR u c) (LocDecoder.untilLoop t p n a) (Decoder.untilLoop t p' n a')
  | 0, _, _, _ => trivial
  | n + 1, a, a', h => by
    simp only [LocDecoder.untilLoop, Decoder.untilLoop]
    rw [h.pos]
    refine ORel.bind (hp _ h.inside) fun w w' hw => ?_
    rw [hw.pos]
    rcases t.matches w'.value.2 with _ | _ | k
    · rfl
    · exact h.push hw
    · exact untilLoop_rel t n (h.push hw)

theorem betweenLoop_rel (t : MatchTree) (lo hi : Nat) (st : ReadCtxt) {c : ReadCtxt} :
    ∀ n {a : LocDecoder.Acc} {a' : Decoder.Acc}, AR u c a a' →
    ORel (AR u c) (LocDecoder.betweenLoop t lo hi st p n a) (Decoder.betweenLoop t lo hi st p' n a')
  | 0, _, _, _ => trivial
  | n + 1, a, a', h => by
    simp only [LocDecoder.betweenLoop, Decoder.betweenLoop]
    rw [h.pos, h.vals.length]
    rcases t.matches st with _ | ix
    · rfl
    · simp only
      split
      · split
        · trivial
        · exact h
      · exact ORel.bind (hp _ h.inside) fun w w' hw => betweenLoop_rel t lo hi st n (h.push hw)

theorem untilDoneLoop_rel {done : ParsedValue → List ParsedValue → Panicky Bool}
    {done' : Value → List Value → Panicky Bool}
    (hd : ∀ x y xs ys, Rel u x y → LRel (Rel u) xs ys → PRel (fun a b => a = b) (done x xs) (done' y ys))
    {c : ReadCtxt} : ∀ n {a : LocDecoder.Acc} {a' : Decoder.Acc}, AR u c a a' →
    ORel (AR u c) (LocDecoder.untilDoneLoop done p n a) (Decoder.untilDoneLoop done' p' n a')
  | 0, _, _, _ => trivial
  | n + 1, a, a', h => by
    simp only [LocDecoder.untilDoneLoop, Decoder.untilDoneLoop]
    rw [h.pos]
    refine ORel.bind (hp _ h.inside) fun w w' hw => ?_
    refine ORel.bind (ORel.ofPanicky (hd _ _ _ _ hw.val (h.vals.snoc hw.val))) fun b b' hb => ?_
    subst hb
    split
    · exact h.push hw
    · exact untilDoneLoop_rel hd n (h.push hw)

theorem accumLoop_rel {done : Value → List ParsedValue → Panicky Bool} {done' : Value → List Value → Panicky Bool}
    {upd : Value → ParsedValue → Panicky Value} {upd' : Value → Value → Panicky Value}
    (hd : ∀ x y xs ys, VRel u x y → LRel (Rel u) xs ys → PRel (fun a b => a = b) (done x xs) (done' y ys))
    (hu : ∀ x y v w, VRel u x y → Rel u v w → PRel (VRel u) (upd x v) (upd' y w))
    {c : ReadCtxt} : ∀ n {b b' : Value} {a : LocDecoder.Acc} {a' : Decoder.Acc}, VRel u b b' → AR u c a a' →
    ORel (fun r r' => VRel u r.1 r'.1 ∧ AR u c r.2 r'.2) (LocDecoder.accumLoop done upd p n b a)
      (Decoder.accumLoop done' upd' p' n b' a')
  | 0, _, _, _, _, _, _ => trivial
  | n + 1, b, b', a, a', hb, h => by
    simp only [LocDecoder.accumLoop, Decoder.accumLoop]
    refine ORel.bind (ORel.ofPanicky (hd _ _ _ _ hb h.vals)) fun d d' hdd => ?_
    subst hdd
    split
    · exact ⟨hb, h⟩
    · rw [h.pos]
      refine ORel.bind (hp _ h.inside) fun w w' hw => ?_
      refine ORel.bind (ORel.ofPanicky (hu _ _ _ _ hb hw.val)) fun x x' hx => ?_
      exact accumLoop_rel hd hu n hx (h.push hw)

end Loops

theorem finishSeq_rel {c : ReadCtxt} {a : LocDecoder.Acc} {a' : Decoder.Acc} (h : AR u c a a') :
    ORel (PR u) (LocDecoder.finishSeq c.offset a)
      (.ok (a'.map fun r => (.seq (.strict r.1), r.2))) := by
  unfold LocDecoder.finishSeq LocDecoder.subUsize
  rw [h.pos, if_pos h.fwd]
  exact ⟨.seq (RelL.of h.vals), h.pos, h.errs⟩

theorem evalView_rel {s : LocScope Decoder} {s' : Scope Decoder} (hs : ScopeRel u s s') :
    ∀ v, CommonView u v →
      ORel (fun c c' => c = c' ∧ In c') (LocDecoder.evalView s v) (Decoder.evalView s' v)
  | .var n, _ => by
    simp only [LocDecoder.evalView, Decoder.evalView]
    have := hs.getView n
    rw [this.1]
    cases h : s'.getView n with
    | none => trivial
    | some c => exact ⟨rfl, this.2 c h⟩
  | .offset b e, hc => by
    simp only [LocDecoder.evalView, Decoder.evalView]
    refine ORel.bind (ORel.ofPanicky (evalValue_rel hc.2 hs)) fun x y hxy => ?_
    refine ORel.bind (ORel.ofPanicky hxy.usize) fun a a' ha => ?_
    subst ha
    refine ORel.bind (evalView_rel hs b hc.1) fun c c' hcc => ?_
    obtain ⟨rfl, hin⟩ := hcc
    unfold ReadCtxt.splitAt
    cases h1 : addUsize c.offset a with
    | panic => trivial
    | ok n =>
      simp only
      by_cases h2 : n ≤ c.input.length
      · simp only [h2, if_true]; exact ⟨rfl, h2⟩
      · simp only [h2, if_false]; exact rfl

theorem evalArgs_rel {s : LocScope Decoder} {s' : Scope Decoder} (hs : ScopeRel u s s') :
    ∀ as : List (String × Expr), (∀ a ∈ as, CommonBound u a.2) →
      ORel (LRel (EntryRel u)) (LocDecoder.evalArgs s as) (Decoder.evalArgs s' as)
  | [], _ => LRel.nil
  | (n, e) :: as, hc => by
    simp only [LocDecoder.evalArgs, Decoder.evalArgs]
    refine ORel.bind (ORel.ofPanicky (evalBound_rel (hc _ List.mem_cons_self) hs)) fun x y hxy => ?_
    refine ORel.bind (evalArgs_rel hs as fun a ha => hc a (List.mem_cons_of_mem _ ha)) fun xs ys h => ?_
    exact LRel.cons (.value hxy) h

theorem evalViewArgs_rel {s : LocScope Decoder} {s' : Scope Decoder} (hs : ScopeRel u s s') :
    ∀ vs : List (String × ViewExpr), (∀ a ∈ vs, CommonView u a.2) →
      ORel (LRel (EntryRel u)) (LocDecoder.evalViewArgs s vs) (Decoder.evalViewArgs s' vs)
  | [], _ => LRel.nil
  | (n, e) :: as, hc => by
    simp only [LocDecoder.evalViewArgs, Decoder.evalViewArgs]
    refine ORel.bind (evalView_rel hs _ (hc _ List.mem_cons_self)) fun x y hxy => ?_
    refine ORel.bind (evalViewArgs_rel hs as fun a ha => hc a (List.mem_cons_of_mem _ ha)) fun xs ys h => ?_
    obtain ⟨rfl, hin⟩ := hxy
    exact LRel.cons (.view hin) h

theorem groundU8_rel (b : UInt8) (o l : Nat) : Rel u (.newFlat (LocDecoder.groundU8 b) o l) (.u8 b) :=
  .num (fun h => by cases h)

theorem captureLoop_rel : ∀ n o (c : ReadCtxt) {ps : List ParsedValue} {vs : List Value}, LRel (Rel u) ps vs →
    ORel (LRel (Rel u)) (LocDecoder.captureLoop n o c ps) (Decoder.captureLoop n c vs)
  | 0, _, _, _, _, h => h
  | n + 1, o, c, ps, vs, h => by
    simp only [LocDecoder.captureLoop, Decoder.captureLoop]
    rcases c.readByte with _ | ⟨b, c'⟩
    · rfl
    · exact captureLoop_rel n _ _ (h.snoc (groundU8_rel _ _ _))

theorem readBase_rel (c : ReadCtxt) (k : BaseKind) :
    ORel (fun r r' => Rel u r.1 r'.1 ∧ r.2 = r'.2) (LocDecoder.readBase c k) (Decoder.readBase c k) := by
  have key : ∀ w : Num.BitWidth, ORel (fun r r' => Rel u r.1 r'.1 ∧ r.2 = r'.2)
      (if k.be then
        match c.readBe (w.bits / 8) with
        | none => .err (.overrun (w.bits / 8) c.offset)
        | some (n, buf') =>
          if h : n < (UKind.fixed w).card then
            .ok (ParsedValue.newFlat (.num (.fixed w) ⟨n, h⟩) c.offset (w.bits / 8), buf')
          else .panic
      else .panic)
      (if k.be then
        match c.readBe (w.bits / 8) with
        | none => .err (.overrun (w.bits / 8) c.offset)
        | some (n, buf') => do
          let v ← Outcome.ofPanicky (Value.mkNum (.fixed w) n)
          .ok (v, buf')
      else .panic) := by
    intro w
    split
    · rcases c.readBe (w.bits / 8) with _ | ⟨n, c'⟩
      · rfl
      · simp only
        unfold Value.mkNum
        split
        · exact ⟨.num (fun h => by cases h), rfl⟩
        · trivial
    · trivial
  unfold LocDecoder.readBase Decoder.readBase
  cases k.width with
  | b8 =>
    rcases c.readByte with _ | ⟨b, c'⟩
    · rfl
    · exact ⟨groundU8_rel _ _ _, rfl⟩
  | b16 => exact key .b16
  | b32 => exact key .b32
  | b64 => exact key .b64

theorem readArrayLoop_rel (k : BaseKind) : ∀ n (c : ReadCtxt) {ps : List ParsedValue} {vs : List Value},
    LRel (Rel u) ps vs →
    ORel (LRel (Rel u)) (LocDecoder.readArrayLoop k n c ps) (Decoder.readArrayLoop k n c vs)
  | 0, _, _, _, h => h
  | n + 1, c, ps, vs, h => by
    simp only [LocDecoder.readArrayLoop, Decoder.readArrayLoop]
    refine ORel.bind (readBase_rel (u := u) c k) fun r r' hr => ?_
    rw [hr.2]
    exact readArrayLoop_rel k n _ (h.snoc hr.1)

theorem coerce_flat : ∀ v : Value, v.flat.coerceMapped = v.coerceMapped.flat
  | .mapped _ v => by simp only [Value.flat, Value.coerceMapped]; exact coerce_flat v
  | .branch _ v => by simp only [Value.flat, Value.coerceMapped]; exact coerce_flat v
  | .permitOk v => by simp only [Value.flat, Value.coerceMapped]; exact coerce_flat v
  | .bool _ => rfl | .num _ _ => rfl | .char _ => rfl | .numeric _ => rfl | .view _ => rfl | .phantom => rfl
  | .enumFromTo _ _ => rfl | .optNone => rfl | .permitErrNone => rfl
  | .optSome _ => by simp only [Value.flat, Value.coerceMapped]
  | .tuple _ => by simp only [Value.flat, Value.coerceMapped]
  | .record _ => by simp only [Value.flat, Value.coerceMapped]
  | .variant _ _ => by simp only [Value.flat, Value.coerceMapped]
  | .seq _ => by simp only [Value.flat, Value.coerceMapped]
  | .permitErr _ => by simp only [Value.flat, Value.coerceMapped]

theorem usizeList_flat (vs : List Value) : Decoder.usizeList (vs.map Value.flat) = Decoder.usizeList vs := by
  induction vs with
  | nil => rfl
  | cons v vs ih =>
    rw [List.map_cons]
    unfold Decoder.usizeList
    rw [coerce_flat, ih]
    cases v.coerceMapped with
    | num k n =>
      cases k with
      | usize => rfl
      | fixed w => cases w <;> rfl
    | _ => rfl

theorem valueToVecUsize_rel {p : ParsedValue} {v : Value} (h : Rel u p v) :
    Decoder.valueToVecUsize p.erase = Decoder.valueToVecUsize v := by
  rw [h.erase]
  cases v with
  | seq s =>
    rw [Value.flat, flatSeq_eq]
    exact usizeList_flat _
  | _ => rfl

theorem evalHuffman_rel {s : LocScope Decoder} {s' : Scope Decoder} (hs : ScopeRel u s s') {ls : Expr}
    {vs : Option Expr} (h1 : CommonExpr u ls) (h2 : ∀ e, vs = some e → CommonExpr u e) :
    PRel (fun a b => a = b) (LocDecoder.evalHuffman s ls vs) (Decoder.evalHuffman s' ls vs) := by
  unfold LocDecoder.evalHuffman Decoder.evalHuffman
  refine PRel.bind (eval_rel ls h1 hs) fun x y h => ?_
  rw [valueToVecUsize_rel h]
  refine PRel.bind (.same _) fun a b hab => ?_
  subst hab
  cases vs with
  | none => rfl
  | some e =>
    refine PRel.bind (eval_rel e (h2 e rfl) hs) fun x y h => ?_
    rw [valueToVecUsize_rel h]
    refine PRel.bind (.same _) fun a b hab => ?_
    subst hab
    rfl

theorem bytesOf_flat (vs : List Value) : Decoder.bytesOf (vs.map Value.flat) = Decoder.bytesOf vs := by
  induction vs with
  | nil => rfl
  | cons v vs ih => simp only [List.map_cons, Decoder.bytesOf, getAsU8_flat, ih]

theorem flat_items_bytes {q q' : Value.ValueSeq} {v : Value} (h : v.getSequence = some q)
    (h' : v.flat.getSequence = some q') : Decoder.bytesOf q'.items = Decoder.bytesOf q.items := by
  cases v <;> first | (cases h; done) | skip
  case enumFromTo => cases h; cases h'; rfl
  case seq s =>
    cases h
    rw [Value.flat, Value.getSequence] at h'
    cases h'
    rw [flatSeq_eq]
    exact bytesOf_flat _

theorem flat_getSequence_none (v : Value) : v.flat.getSequence = none ↔ v.getSequence = none := by
  cases v <;> simp [Value.flat, Value.getSequence]

theorem LRel.sameErr {es : List LocErr} {es' : List DecodeErr} (h : LRel ERel es es') :
    es.map eraseErr = es'.map flatErr := by
  induction h with
  | nil => rfl
  | cons h1 _ ih => rw [List.map_cons, List.map_cons, h1, ih]

theorem translate_rel (l : ParseLoc) : ∀ {p : ParsedValue} {v : Value}, Rel u p v → Rel u (p.translate l) v
  | _, _, .mapped hw h h' => by
    rw [ParsedValue.translate]; exact .mapped hw h (translate_rel l h')
  | _, _, .branch hw h => by rw [ParsedValue.translate]; exact .branch hw (translate_rel l h)
  | _, _, .permitOk hw h => by rw [ParsedValue.translate]; exact .permitOk hw (translate_rel l h)
  | _, _, .permitErr hp h => by rw [ParsedValue.translate]; exact .permitErr hp (translate_rel l h)
  | _, _, .variant h => by rw [ParsedValue.translate]; exact .variant (translate_rel l h)
  | _, _, .optSome h => by rw [ParsedValue.translate]; exact .optSome (translate_rel l h)
  | _, _, .bool => .bool
  | _, _, .num h => .num h
  | _, _, .char => .char
  | _, _, .numeric h => .numeric h
  | _, _, .view => .view
  | _, _, .phantom => .phantom
  | _, _, .enumFromTo h => .enumFromTo h
  | _, _, .tuple h => .tuple h
  | _, _, .record h => .record h
  | _, _, .seq h => .seq h
  | _, _, .permitErrNone hp => .permitErrNone hp
  | _, _, .optNone => .optNone

theorem parallel_rel {p : Decoder → Outcome LocErr LocParsed} {p' : Decoder → Outcome DecodeErr Parsed} (o : Nat)
    (hw : u.wrap = true) : ∀ ds : List Decoder, (∀ d ∈ ds, ORel (PR u) (p d) (p' d)) → ∀ i,
    ORel (PR u) (LocDecoder.parallelLoop p o i ds) (Decoder.parallelLoop p' o i ds)
  | [], _, _ => rfl
  | d :: ds, hp, i => by
    simp only [LocDecoder.parallelLoop, Decoder.parallelLoop]
    obtain ⟨a, b, h1, h2, h3⟩ | ⟨e, e', h1, h2, h3⟩ | ⟨h1, h2⟩ | ⟨h1, h2⟩ := (hp d List.mem_cons_self).both
    · rw [h1, h2]; exact ⟨.branch hw h3.val, h3.pos, h3.errs⟩
    · rw [h1, h2]; exact parallel_rel o hw ds (fun d hd => hp d (List.mem_cons_of_mem _ hd)) _
    · rw [h1, h2]; trivial
    · rw [h1, h2]; trivial

theorem match_rel {p : List (String × ParsedValue) → Decoder → Outcome LocErr LocParsed}
    {p' : List (String × Value) → Decoder → Outcome DecodeErr Parsed} (hw : u.wrap = true)
    {x : ParsedValue} {y : Value} (hxy : Rel u x y)
    (hp : ∀ bs bs' d, RelF u bs bs' → Common u d → ORel (PR u) (p bs d) (p' bs' d)) :
    ∀ (ds : List (Pattern × Decoder)), CommonMatch u ds → ∀ i,
    ORel (PR u) (LocDecoder.matchLoop p x i ds) (Decoder.matchLoop p' y i ds)
  | [], _, _ => trivial
  | (pat, d) :: ds, hc, i => by
    simp only [LocDecoder.matchLoop, Decoder.matchLoop]
    obtain ⟨h4, h5⟩ | ⟨a, b', h4, h5, h6⟩ := (hxy.matchesPat pat hc.1).both
    · simp only [h4, h5]; exact match_rel hw hxy hp ds hc.2.2 _
    · simp only [h4, h5]
      exact ORel.bind (hp _ _ _ h6 hc.2.1) fun w w' h => ⟨.branch hw h.val, h.pos, h.errs⟩

theorem CommonAll.mem : ∀ {ds : List Decoder}, CommonAll u ds → ∀ d ∈ ds, Common u d
  | [], _, _, h => by cases h
  | d :: ds, hc, e, h => by
    cases h with
    | head => exact hc.1
    | tail _ h => exact CommonAll.mem hc.2 e h

theorem LRel.refl' {α : Type} {q : α → α → Prop} : ∀ (xs : List α), (∀ x ∈ xs, q x x) → LRel q xs xs
  | [], _ => .nil
  | x :: xs, h => .cons (h x List.mem_cons_self) (LRel.refl' xs fun y hy => h y (List.mem_cons_of_mem _ hy))

theorem joinO_rel {α β : Type} {w : WithErr α LocErr} {w' : WithErr β DecodeErr}
    {f : α → Outcome LocErr LocParsed} {g : β → Outcome DecodeErr Parsed}
    (he : LRel ERel w.errs w'.errs) (h : ORel (PR u) (f w.value) (g w'.value)) :
    ORel (PR u) (w.joinO f) (w'.joinO g) :=
  ORel.bind h fun _ _ hx => ⟨hx.val, hx.pos, hx.errs.append he⟩

/-- Location-tracking decoding simulates plain decoding. -/
theorem parse_rel (env : Env) (henv : CommonEnv u env) : ∀ (n : Nat) (d : Decoder), Common u d →
    ∀ {s : LocScope Decoder} {s' : Scope Decoder}, ScopeRel u s s' → ∀ c, In c →
    ORel (PR u) (LocDecoder.parse env n d s c) (Decoder.parse env n d s' c) := by
  intro n
  induction n with
  | zero => intro d _ s s' _ c _; trivial
  | succ n ih =>
    intro d hd s s' hs c hc
    -- results of the recursive calls, with their positions
    have ihF : ∀ d, Common u d → ∀ {s : LocScope Decoder} {s' : Scope Decoder}, ScopeRel u s s' →
        DR u (LocDecoder.parse env n d s) (Decoder.parse env n d s') := by
      intro d hd s s' hs c hc
      refine (ih d hd hs c hc).mono fun w w' _ h2 h3 => ?_
      have := C07_forward env n d s' c w' hc h2
      exact ⟨h3, this.2.1, by rw [In, this.1]; exact this.2.2⟩
    cases d with
    | call k args views =>
      simp only [LocDecoder.parse, Decoder.parse]
      refine ORel.bind (evalArgs_rel hs _ hd.1) fun as as' ha => ?_
      refine ORel.bind (evalViewArgs_rel hs _ hd.2) fun vs vs' hv => ?_
      cases hk : env.program[k]? with
      | none => trivial
      | some d => exact ih d (henv.1 d (List.mem_of_getElem? hk)) (.multi (ha.append hv) .empty) c hc
    | pos =>
      simp only [LocDecoder.parse, Decoder.parse]
      exact ⟨.num (fun h => by cases h), rfl, .nil⟩
    | fail => simp only [LocDecoder.parse, Decoder.parse]; rfl
    | endOfInput =>
      simp only [LocDecoder.parse, Decoder.parse]
      rcases c.readByte with _ | ⟨b, c'⟩
      · exact ⟨.tuple .nil, rfl, .nil⟩
      · rfl
    | align k =>
      simp only [LocDecoder.parse, Decoder.parse]
      split
      · trivial
      · cases c.splitAt ((k - c.offset % k) % k) with
        | panic => trivial
        | ok r =>
          rcases r with _ | ⟨a, b⟩
          · rfl
          · exact ⟨.tuple .nil, rfl, .nil⟩
    | byte bs =>
      simp only [LocDecoder.parse, Decoder.parse]
      rcases c.readByte with _ | ⟨b, c'⟩
      · rfl
      · simp only
        split
        · exact ⟨groundU8_rel _ _ _, rfl, .nil⟩
        · rfl
    | variant l d =>
      simp only [LocDecoder.parse, Decoder.parse]
      exact ORel.bind (ih d hd hs c hc) fun w w' h => ⟨.variant h.val, h.pos, h.errs⟩
    | parallel ds =>
      simp only [LocDecoder.parse, Decoder.parse]
      exact parallel_rel _ hd.1 ds (fun d hm => ih d (hd.2.mem d hm) hs c hc) _
    | branch t ds =>
      simp only [LocDecoder.parse, Decoder.parse]
      rcases t.matches c with _ | ix
      · rfl
      · simp only
        cases hk : ds[ix]? with
        | none => trivial
        | some d =>
          exact ORel.bind (x := LocDecoder.parse env n d s c) (y := Decoder.parse env n d s' c)
            (ih d (hd.2.mem d (List.mem_of_getElem? hk)) hs c hc)
            fun w w' h => ⟨.branch hd.1 h.val, h.pos, h.errs⟩
    | tuple ds =>
      simp only [LocDecoder.parse, Decoder.parse]
      refine ORel.bind (foldItems_rel (LRel.refl' (q := fun x y => x = y ∧ Common u x) ds
        (fun d hm => ⟨rfl, CommonAll.mem hd d hm⟩)) (fun x y hxy => by
          obtain ⟨rfl, h⟩ := hxy; exact ihF _ h hs) (.start hc)) fun a a' h => ?_
      unfold LocDecoder.subUsize
      rw [h.pos, if_pos h.fwd]
      exact ⟨.tuple (RelL.of h.vals), h.pos, h.errs⟩
    | sequence ds =>
      simp only [LocDecoder.parse, Decoder.parse]
      exact ORel.bind (foldItems_rel (LRel.refl' (q := fun x y => x = y ∧ Common u x) ds
        (fun d hm => ⟨rfl, CommonAll.mem hd d hm⟩)) (fun x y hxy => by
          obtain ⟨rfl, h⟩ := hxy; exact ihF _ h hs) (.start hc)) fun a a' h => finishSeq_rel h
    | while_ t d =>
      simp only [LocDecoder.parse, Decoder.parse]
      exact ORel.bind (whileLoop_rel (ihF d hd hs) t n (.start hc)) fun a a' h => finishSeq_rel h
    | until_ t d =>
      simp only [LocDecoder.parse, Decoder.parse]
      exact ORel.bind (untilLoop_rel (ihF d hd hs) t n (.start hc)) fun a a' h => finishSeq_rel h
    | repeatCount e d =>
      simp only [LocDecoder.parse, Decoder.parse]
      refine ORel.bind (ORel.ofPanicky (evalUsize_rel hd.1 hs)) fun k k' hk => ?_
      subst hk
      exact ORel.bind (foldItems_rel (LRel.refl' (q := fun _ _ => True) _ (fun _ _ => trivial))
        (fun _ _ _ => ihF d hd.2 hs) (.start hc)) fun a a' h => finishSeq_rel h
    | repeatUntilLast e d =>
      simp only [LocDecoder.parse, Decoder.parse]
      exact ORel.bind (untilDoneLoop_rel (ihF d hd.2 hs)
        (fun x y xs ys hxy _ => lambdaBool_rel hd.1 hs hxy) n (.start hc)) fun a a' h => finishSeq_rel h
    | repeatUntilSeq e d =>
      simp only [LocDecoder.parse, Decoder.parse]
      refine ORel.bind (untilDoneLoop_rel (ihF d hd.2 hs)
        (fun x y xs ys _ h => lambdaBool_rel hd.1 hs (.seq (s := .strict ys) (RelL.of h))) n (.start hc))
        fun a a' h => ?_
      unfold LocDecoder.subUsize
      rw [if_pos (Nat.le_refl _)]
      exact ⟨.seq (RelL.of h.vals), h.pos, h.errs⟩
    | maybe e d =>
      simp only [LocDecoder.parse, Decoder.parse]
      refine ORel.bind (ORel.ofPanicky (evalBool_rel hd.1 hs)) fun k k' hk => ?_
      subst hk
      split
      · exact ORel.bind (ih d hd.2 hs c hc) fun w w' h => ⟨.optSome h.val, h.pos, h.errs⟩
      · exact ⟨.optNone, rfl, .nil⟩
    | peek d =>
      simp only [LocDecoder.parse, Decoder.parse]
      exact ORel.bind (ih d hd hs c hc) fun w w' h => ⟨h.val, rfl, h.errs⟩
    | peekNot d =>
      simp only [LocDecoder.parse, Decoder.parse]
      obtain ⟨a, b, h1, h2, h3⟩ | ⟨e, e', h1, h2, h3⟩ | ⟨h1, h2⟩ | ⟨h1, h2⟩ := (ih d hd hs c hc).both
      · rw [h1, h2]; rfl
      · rw [h1, h2]; exact ⟨.tuple .nil, rfl, .nil⟩
      · rw [h1, h2]; trivial
      · rw [h1, h2]; trivial
    | slice e d =>
      simp only [LocDecoder.parse, Decoder.parse]
      refine ORel.bind (ORel.ofPanicky (evalUsize_rel hd.1 hs)) fun k k' hk => ?_
      subst hk
      have hsp : ∀ a b, c.splitAt k = .ok (some (a, b)) → In a := by
        intro a b h
        unfold ReadCtxt.splitAt at h
        cases h1 : addUsize c.offset k with
        | panic => rw [h1] at h; cases h
        | ok e =>
          rw [h1] at h
          simp only at h
          split at h
          · next h2 =>
            cases h
            unfold addUsize at h1
            split at h1
            · cases h1; simp only [In, List.length_take]; omega
            · cases h1
          · cases h
      cases h1 : c.splitAt k with
      | panic => trivial
      | ok r =>
        rcases r with _ | ⟨a, b⟩
        · rfl
        · exact ORel.bind (x := LocDecoder.parse env n d s a) (y := Decoder.parse env n d s' a)
            (ih d hd.2 hs a (hsp a b h1)) fun w w' h => ⟨h.val, rfl, h.errs⟩
    | bits d =>
      simp only [LocDecoder.parse, Decoder.parse]
      refine ORel.bind (ORel.ofPanicky (.same _)) fun k k' hk => ?_
      subst hk
      refine ORel.bind (ih d hd hs _ (Nat.zero_le _)) fun w w' h => ?_
      refine joinO_rel h.errs ?_
      unfold LocDecoder.finishBits Decoder.finishBits
      rw [h.pos]
      refine ORel.bind (ORel.ofPanicky (.same _)) fun k k' hk => ?_
      subst hk
      refine ORel.bind (ORel.ofPanicky (.same _)) fun k1 k' hk => ?_
      subst hk
      split
      · trivial
      · refine ORel.bind (ORel.ofPanicky (.same _)) fun k2 k' hk => ?_
        subst hk
        rcases k2 with _ | ⟨a, b⟩
        · rfl
        · exact ⟨h.val, rfl, .nil⟩
    | withRelativeOffset b o d =>
      simp only [LocDecoder.parse, Decoder.parse]
      refine ORel.bind (ORel.ofPanicky (evalUsize_rel hd.1 hs)) fun k k' hk => ?_
      subst hk
      refine ORel.bind (ORel.ofPanicky (evalUsize_rel hd.2.1 hs)) fun k1 k' hk => ?_
      subst hk
      refine ORel.bind (ORel.ofPanicky (.same _)) fun k2 k' hk => ?_
      subst hk
      unfold ReadCtxt.seekTo
      by_cases h1 : k2 ≤ c.input.length
      · simp only [h1, if_true]
        exact ORel.bind (ih d hd.2.2 hs _ h1) fun w w' h => ⟨h.val, rfl, h.errs⟩
      · simp only [h1, if_false]; exact rfl
    | map d e =>
      simp only [LocDecoder.parse, Decoder.parse]
      refine ORel.bind (ih d hd.2.1 hs c hc) fun w w' h => ?_
      refine ORel.bind (ORel.ofPanicky (evalLambda_rel e hd.2.2 hs h.val)) fun v v' hv => ?_
      exact ⟨.mapped hd.1 h.val (translate_rel _ hv.1), h.pos, h.errs⟩
    | where_ d e strict =>
      simp only [LocDecoder.parse, Decoder.parse]
      refine ORel.bind (ih d hd.1 hs c hc) fun w w' h => ?_
      refine joinO_rel h.errs ?_
      refine ORel.bind (ORel.ofPanicky (lambdaBool_rel hd.2 hs h.val)) fun k k' hk => ?_
      subst hk
      have he : ERel (.badWhere e w.value.1) (.badWhere e w'.value.1) := by
        simp only [ERel, eraseErr, flatErr, h.val.erase]
      split
      · exact ⟨h.val, h.pos, .nil⟩
      · split
        · exact he
        · exact ⟨h.val, h.pos, .cons he .nil⟩
    | compute e =>
      simp only [LocDecoder.parse, Decoder.parse]
      exact ORel.bind (ORel.ofPanicky (evalBound_rel hd hs)) fun v v' hv => ⟨hv, rfl, .nil⟩
    | let_ name e d =>
      simp only [LocDecoder.parse, Decoder.parse]
      exact ORel.bind (ORel.ofPanicky (evalBound_rel hd.1 hs)) fun v v' hv => ih d hd.2 (.single hv hs) c hc
    | match_ e bs =>
      simp only [LocDecoder.parse, Decoder.parse]
      exact ORel.bind (ORel.ofPanicky (eval_rel e hd.2.1 hs)) fun v v' hv =>
        match_rel hd.1 hv (fun bs bs' d hb hcd => ih d hcd (hs.withBindings hb) c hc) bs hd.2.2 0
    | dynamic name ls vs d =>
      simp only [LocDecoder.parse, Decoder.parse]
      refine ORel.bind (ORel.ofPanicky (evalHuffman_rel hs hd.2.1 hd.2.2.1)) fun v v' hv => ?_
      subst hv
      refine ORel.bind (ORel.ofPanicky (.same _)) fun f f' hf => ?_
      subst hf
      cases h1 : env.compileOne f with
      | ok r =>
        cases r with
        | none => trivial
        | some dyn => exact ih d hd.2.2.2 (.decoder (henv.2 f dyn h1) hs) c hc
      | err e => cases e
      | panic => trivial
      | fuel => trivial
    | apply name =>
      simp only [LocDecoder.parse, Decoder.parse]
      have h1 := hs.getDecoder name
      rw [h1.1]
      cases h2 : s'.getDecoder name with
      | none => trivial
      | some d => exact ih d (h1.2 d h2) hs c hc
    | repeatBetween t x y d =>
      simp only [LocDecoder.parse, Decoder.parse]
      refine ORel.bind (ORel.ofPanicky (evalUsize_rel hd.1 hs)) fun k k' hk => ?_
      subst hk
      refine ORel.bind (ORel.ofPanicky (evalUsize_rel hd.2.1 hs)) fun k1 k' hk => ?_
      subst hk
      exact ORel.bind (betweenLoop_rel (ihF d hd.2.2 hs) t _ _ c n (.start hc)) fun a a' h => finishSeq_rel h
    | forEach e l d =>
      simp only [LocDecoder.parse, Decoder.parse]
      unfold Decoder.evalItems
      obtain ⟨h1, h2⟩ | ⟨p, v, h1, h2, h3⟩ := (evalBound_rel hd.1 hs).both
      · rw [h1, h2]; trivial
      · rw [h1, h2]
        obtain ⟨h4, h5⟩ | ⟨q, q', h4, h5, h6⟩ := h3.getSequence.both
        · show ORel _ (Outcome.ofPanicky (Panicky.unwrap p.getSequence) >>= _)
            (Outcome.ofPanicky (Panicky.unwrap v.getSequence >>= _) >>= _)
          rw [h4, h5]; trivial
        · show ORel _ (Outcome.ofPanicky (Panicky.unwrap p.getSequence) >>= _)
            (Outcome.ofPanicky (Panicky.unwrap v.getSequence >>= _) >>= _)
          rw [h4, h5]
          exact ORel.bind (x := LocDecoder.foldItems _ _ _) (y := Decoder.foldItems _ _ _)
            (foldItems_rel h6.items (fun x y hxy => ihF d hd.2 (.single hxy hs)) (.start hc))
            fun a a' h => finishSeq_rel h
    | skipRemainder =>
      simp only [LocDecoder.parse, Decoder.parse]
      unfold LocDecoder.subUsize
      rw [if_pos (by exact hc)]
      exact ⟨.tuple .nil, rfl, .nil⟩
    | decodeBytes e d =>
      simp only [LocDecoder.parse, Decoder.parse]
      unfold Decoder.evalItems
      obtain ⟨h1, h2⟩ | ⟨p, v, h1, h2, h3⟩ := (evalValue_rel hd.1 hs).both
      · rw [h1, h2]; trivial
      · rw [h1, h2]
        show ORel _ (Outcome.ofPanicky (Panicky.unwrap p.getSequence) >>= _)
            (Outcome.ofPanicky (Panicky.unwrap v.getSequence >>= _) >>= _)
        rw [h3.2]
        cases h4 : v.getSequence with
        | none => rw [(flat_getSequence_none v).2 h4]; trivial
        | some q =>
          cases h5 : v.flat.getSequence with
          | none => rw [(flat_getSequence_none v).1 h5] at h4; cases h4
          | some q' =>
            show ORel _ (Outcome.ofPanicky (Decoder.bytesOf q'.items) >>= _)
              (Outcome.ofPanicky (Decoder.bytesOf q.items) >>= _)
            rw [flat_items_bytes h4 h5]
            refine ORel.bind (ORel.ofPanicky (.same _)) fun bs bs' hb => ?_
            subst hb
            refine ORel.bind (ih d hd.2 hs _ (Nat.zero_le _)) fun w w' h => ?_
            refine joinO_rel h.errs ?_
            rw [h.pos]
            rcases w'.value.2.readByte with _ | ⟨b, c'⟩
            · exact ⟨h.val, rfl, .nil⟩
            · exact ⟨h.val, rfl, .cons rfl .nil⟩
    | parseFromView v d =>
      simp only [LocDecoder.parse, Decoder.parse]
      refine ORel.bind (evalView_rel hs v hd.1) fun x y hxy => ?_
      obtain ⟨rfl, hin⟩ := hxy
      exact ORel.bind (ih d hd.2 hs _ hin) fun w w' h => ⟨h.val, rfl, h.errs⟩
    | letFormat d name e =>
      simp only [LocDecoder.parse, Decoder.parse]
      refine ORel.bind (ihF d hd.1 hs c hc) fun w w' h => ?_
      refine joinO_rel h.errs ?_
      rw [h.pos]
      exact ih e hd.2 (.single h.val hs) _ h.inside
    | monadSeq d e =>
      simp only [LocDecoder.parse, Decoder.parse]
      refine ORel.bind (ihF d hd.1 hs c hc) fun w w' h => ?_
      refine joinO_rel h.errs ?_
      rw [h.pos]
      exact ih e hd.2 hs _ h.inside
    | accumUntil x y z d =>
      simp only [LocDecoder.parse, Decoder.parse]
      refine ORel.bind (ORel.ofPanicky (evalValue_rel hd.2.2.1 hs)) fun v v' hv => ?_
      refine ORel.bind (accumLoop_rel (ihF d hd.2.2.2 hs) (fun a a' vs vs' ha h => ?_)
        (fun a a' w w' ha h => evalLambda_rel y hd.2.1 hs (pair_rel ha h)) n hv (.start hc)) fun r r' h => ?_
      · refine lambdaBool_rel hd.1 hs (VRel.tuple (.cons ha (.cons (VRel.seqStrict ?_) .nil))).1
        rw [(RelL.of h).erase]
        exact h.vals
      · unfold LocDecoder.subUsize
        rw [h.2.pos, if_pos h.2.fwd]
        exact ⟨.tuple (.cons h.1.1 (.cons (.seq (RelL.of h.2.vals)) .nil)), h.2.pos, h.2.errs⟩
    | liftedNone => simp only [LocDecoder.parse, Decoder.parse]; exact ⟨.optNone, rfl, .nil⟩
    | liftedSome d =>
      simp only [LocDecoder.parse, Decoder.parse]
      exact ORel.bind (ih d hd hs c hc) fun w w' h => ⟨.optSome h.val, h.pos, h.errs⟩
    | letView name d =>
      simp only [LocDecoder.parse, Decoder.parse]
      exact ih d hd (.view hc hs) c hc
    | captureBytes v e =>
      simp only [LocDecoder.parse, Decoder.parse]
      refine ORel.bind (ORel.ofPanicky (evalUsize_rel hd.2 hs)) fun k k' hk => ?_
      subst hk
      refine ORel.bind (evalView_rel hs v hd.1) fun x y hxy => ?_
      obtain ⟨rfl, hin⟩ := hxy
      exact ORel.bind (captureLoop_rel k _ _ .nil) fun ps vs h => ⟨.seq (RelL.of h), rfl, .nil⟩
    | readArray v e kind =>
      simp only [LocDecoder.parse, Decoder.parse]
      refine ORel.bind (ORel.ofPanicky (evalUsize_rel hd.2 hs)) fun k k' hk => ?_
      subst hk
      refine ORel.bind (evalView_rel hs v hd.1) fun x y hxy => ?_
      obtain ⟨rfl, hin⟩ := hxy
      exact ORel.bind (readArrayLoop_rel kind k _ .nil) fun ps vs h => ⟨.seq (RelL.of h), rfl, .nil⟩
    | reifyView v =>
      simp only [LocDecoder.parse, Decoder.parse]
      refine ORel.bind (evalView_rel hs v hd) fun x y hxy => ?_
      obtain ⟨rfl, hin⟩ := hxy
      exact ⟨.view, rfl, .nil⟩
    | phantom => simp only [LocDecoder.parse, Decoder.parse]; exact ⟨.phantom, rfl, .nil⟩
    | enforce d =>
      simp only [LocDecoder.parse, Decoder.parse]
      refine ORel.bind (ih d hd hs c hc) fun w w' h => ?_
      have h1 := h.errs
      cases h2 : w.errs with
      | nil =>
        rw [h2] at h1
        cases h3 : w'.errs with
        | nil => exact ⟨h.val, h.pos, .nil⟩
        | cons _ _ => rw [h3] at h1; cases h1
      | cons e es =>
        rw [h2] at h1
        cases h3 : w'.errs with
        | nil => rw [h3] at h1; cases h1
        | cons e' es' => rw [h3] at h1; cases h1 with | cons h4 _ => exact h4
    | permit d e =>
      simp only [LocDecoder.parse, Decoder.parse]
      obtain ⟨a, b, h1, h2, h3⟩ | ⟨er, er', h1, h2, h3⟩ | ⟨h1, h2⟩ | ⟨h1, h2⟩ := (ih d hd.2.2.1 hs c hc).both
      · rw [h1, h2]; exact ⟨.permitOk hd.1 h3.val, h3.pos, h3.errs⟩
      · rw [h1, h2]
        exact ORel.bind (ORel.ofPanicky (evalBound_rel hd.2.2.2 hs)) fun v v' hv =>
          ⟨.permitErr hd.2.1 hv, rfl, .cons h3 .nil⟩
      · rw [h1, h2]; trivial
      · rw [h1, h2]; trivial

end Loc
end Doodle
