import Verif.Lemmas.Loc

/-! Simulation of expression evaluation: over related scopes the two evaluators give related results. -/

namespace Doodle
namespace Loc

variable {u : Uses}

/-! ### Scopes -/

/-- entries of a scope that agree; views lie inside their buffers -/
inductive EntryRel (u : Uses) : String × LocEntry → String × ViewOrValue → Prop where
  | view {n c} : c.offset ≤ c.input.length → EntryRel u (n, .view c) (n, .view c)
  | value {n p v} : Rel u p v → EntryRel u (n, .value p) (n, .value v)

/-- scopes that agree -/
inductive ScopeRel (u : Uses) : LocScope Decoder → Scope Decoder → Prop where
  | empty : ScopeRel u .empty .empty
  | multi {es es' s s'} : LRel (EntryRel u) es es' → ScopeRel u s s' → ScopeRel u (.multi es s) (.multi es' s')
  | single {n p v s s'} : Rel u p v → ScopeRel u s s' → ScopeRel u (.single n p s) (.single n v s')
  | decoder {n d s s'} : Common u d → ScopeRel u s s' → ScopeRel u (.decoder n d s) (.decoder n d s')
  | view {n c s s'} : c.offset ≤ c.input.length → ScopeRel u s s' → ScopeRel u (.view n c s) (.view n c s')

theorem findValue_rel (name : String) {es es'} (h : LRel (EntryRel u) es es') :
    OptRel (Rel u) (LocScope.findValue name es) (Scope.findValue name es') := by
  induction h with
  | nil => trivial
  | cons h1 _ ih =>
    cases h1 with
    | view _ => simp only [LocScope.findValue, Scope.findValue]; split <;> exact ih
    | value h1 =>
      simp only [LocScope.findValue, Scope.findValue]
      split
      · exact h1
      · exact ih

theorem findView_rel (name : String) {es es'} (h : LRel (EntryRel u) es es') :
    LocScope.findView name es = Scope.findView name es' ∧
      ∀ c, Scope.findView name es' = some c → c.offset ≤ c.input.length := by
  induction h with
  | nil => exact ⟨rfl, (fun _ h => by cases h)⟩
  | cons h1 _ ih =>
    cases h1 with
    | value _ => simp only [LocScope.findView, Scope.findView]; split <;> exact ih
    | view h1 =>
      simp only [LocScope.findView, Scope.findView]
      split
      · exact ⟨rfl, (fun _ h => by cases h; exact h1)⟩
      · exact ih

theorem ScopeRel.getValue {s : LocScope Decoder} {s' : Scope Decoder} (name : String) (h : ScopeRel u s s') :
    OptRel (Rel u) (s.getValue name) (s'.getValue name) := by
  induction h with
  | empty => trivial
  | multi h1 _ ih =>
    have h2 := findValue_rel name h1.reverse
    unfold LocScope.getValue Scope.getValue
    obtain ⟨h3, h4⟩ | ⟨a, b, h3, h4, h5⟩ := h2.both
    · simp only [h3, h4]; exact ih
    · simp only [h3, h4]; exact h5
  | single h1 _ ih =>
    unfold LocScope.getValue Scope.getValue
    split
    · exact h1
    · exact ih
  | decoder _ _ ih => exact ih
  | view _ _ ih => exact ih

theorem ScopeRel.getView {s : LocScope Decoder} {s' : Scope Decoder} (name : String) (h : ScopeRel u s s') :
    s.getView name = s'.getView name ∧ ∀ c, s'.getView name = some c → c.offset ≤ c.input.length := by
  induction h with
  | empty => exact ⟨rfl, (fun _ h => by cases h)⟩
  | multi h1 _ ih =>
    have h2 := findView_rel name h1.reverse
    unfold LocScope.getView Scope.getView
    rw [h2.1]
    cases h3 : Scope.findView name _ with
    | some c => exact ⟨rfl, (fun _ h => by cases h; exact h2.2 _ h3)⟩
    | none => exact ih
  | single _ _ ih => exact ih
  | decoder _ _ ih => exact ih
  | view h1 _ ih =>
    unfold LocScope.getView Scope.getView
    split
    · exact ⟨rfl, (fun _ h => by cases h; exact h1)⟩
    · exact ih

theorem ScopeRel.getDecoder {s : LocScope Decoder} {s' : Scope Decoder} (name : String) (h : ScopeRel u s s') :
    s.getDecoder name = s'.getDecoder name ∧ ∀ d, s'.getDecoder name = some d → Common u d := by
  induction h with
  | empty => exact ⟨rfl, (fun _ h => by cases h)⟩
  | multi _ _ ih => exact ih
  | single _ _ ih => exact ih
  | decoder h1 _ ih =>
    unfold LocScope.getDecoder Scope.getDecoder
    split
    · exact ⟨rfl, (fun _ h => by cases h; exact h1)⟩
    · exact ih
  | view _ _ ih => exact ih

theorem Rel.toStrict : ∀ {p : ParsedValue} {v : Value}, Rel u p v → p.toStrict = v.toStrict
  | _, _, .mapped _ _ h => by simp only [ParsedValue.toStrict, Value.toStrict]; exact Rel.toStrict h
  | _, _, .branch _ h => by simp only [ParsedValue.toStrict, Value.toStrict]; exact Rel.toStrict h
  | _, _, .permitOk _ h => by simp only [ParsedValue.toStrict, Value.toStrict]; exact Rel.toStrict h
  | _, _, .permitErr _ h => by simp only [ParsedValue.toStrict, Value.toStrict]; exact Rel.toStrict h
  | _, _, .bool => rfl
  | _, _, .num _ => rfl
  | _, _, .char => rfl
  | _, _, .numeric _ => rfl
  | _, _, .view => rfl
  | _, _, .phantom => rfl
  | _, _, .enumFromTo _ => rfl
  | _, _, .tuple _ => rfl
  | _, _, .record _ => rfl
  | _, _, .variant _ => rfl
  | _, _, .seq _ => rfl
  | _, _, .permitErrNone _ => rfl
  | _, _, .optNone => rfl
  | _, _, .optSome _ => rfl

theorem ScopeRel.numLookup {s : LocScope Decoder} {s' : Scope Decoder} (h : ScopeRel u s s') :
    s.numLookup = s'.numLookup := by
  funext name
  have h1 := h.getValue name
  unfold LocScope.numLookup Scope.numLookup
  obtain ⟨h3, h4⟩ | ⟨a, b, h3, h4, h5⟩ := h1.both
  · simp only [h3, h4]
  · simp only [h3, h4, h5.toStrict]; rfl

theorem ScopeRel.withBindings {s : LocScope Decoder} {s' : Scope Decoder} (h : ScopeRel u s s')
    {bs : List (String × ParsedValue)} {bs' : List (String × Value)} (hb : RelF u bs bs') :
    ScopeRel u (s.withBindings bs) (s'.withBindings bs') := by
  refine .multi ?_ h
  induction bs generalizing bs' with
  | nil => cases hb; exact .nil
  | cons b bs ih =>
    cases hb with
    | cons h1 h2 => exact .cons (.value h1) (ih h2)

/-! ### Patterns -/

theorem coerceNominal_eq (hu : u.permit = false) : ∀ {p : ParsedValue} {v : Value}, Rel u p v →
    v.coerceNominal = v.coerceMapped
  | _, _, .mapped _ _ h => by
    simp only [Value.coerceNominal, Value.coerceMapped]; exact coerceNominal_eq hu h
  | _, _, .branch _ h => by
    simp only [Value.coerceNominal, Value.coerceMapped]; exact coerceNominal_eq hu h
  | _, _, .permitOk _ h => by
    simp only [Value.coerceNominal, Value.coerceMapped]; exact coerceNominal_eq hu h
  | _, _, .permitErr hp _ => by rw [hp] at hu; cases hu
  | _, _, .bool => rfl
  | _, _, .num _ => rfl
  | _, _, .char => rfl
  | _, _, .numeric _ => rfl
  | _, _, .view => rfl
  | _, _, .phantom => rfl
  | _, _, .enumFromTo _ => rfl
  | _, _, .tuple _ => rfl
  | _, _, .record _ => rfl
  | _, _, .variant _ => rfl
  | _, _, .seq _ => rfl
  | _, _, .permitErrNone _ => rfl
  | _, _, .optNone => rfl
  | _, _, .optSome _ => rfl

theorem matchesFlat_rel {p : ParsedValue} {v : Value} (h : Rel u p v) (pat : Pattern)
    (hp : u.num = true → NoMachineInt pat) : p.matchesFlat pat = v.matchesFlat pat := by
  cases h with
  | numeric hn =>
    have := hp hn
    cases pat <;> first | rfl | exact this.elim
  | bool => cases pat <;> rfl
  | num _ => cases pat <;> rfl
  | char => cases pat <;> rfl
  | _ => cases pat <;> rfl

theorem RelF.snoc {fs : List (String × ParsedValue)} : ∀ {gs : List (String × Value)} {n p v},
    RelF u fs gs → Rel u p v → RelF u (fs ++ [(n, p)]) (gs ++ [(n, v)]) := by
  induction fs with
  | nil => intro gs n p v h h1; cases h; exact .cons h1 .nil
  | cons f fs ih =>
    intro gs n p v h h1
    cases h with | cons h2 h3 => exact .cons h2 (ih h3 h1)

theorem fallback_rel {p : ParsedValue} {v : Value} (h : Rel u p v) (pat : Pattern)
    (hp : u.num = true → NoMachineInt pat) {acc : List (String × ParsedValue)} {acc' : List (String × Value)}
    (ha : RelF u acc acc') :
    OptRel (RelF u) (if p.matchesFlat pat then some acc else none)
      (if v.matchesFlat pat then some acc' else none) := by
  rw [matchesFlat_rel h pat hp]
  split
  · exact ha
  · trivial

mutual
theorem matches_rel : ∀ (pat : Pattern) (_ : u.num = true → NoMachineInt pat) {p : ParsedValue} {v : Value}
    (_ : Rel u p v) {acc : List (String × ParsedValue)} {acc' : List (String × Value)} (_ : RelF u acc acc'),
    OptRel (RelF u) (pat.matchesLoc p acc) (pat.matchesInner v acc')
  | .binding n, _, p, v, h, acc, acc', ha => by
    simp only [Pattern.matchesLoc, Pattern.matchesInner]; exact ha.snoc h
  | .wildcard, _, p, v, h, acc, acc', ha => by
    simp only [Pattern.matchesLoc, Pattern.matchesInner]; exact ha
  | .tuple ps, hp, p, v, h, acc, acc', ha => by
    cases h with
    | tuple h =>
      simp only [Pattern.matchesLoc, Pattern.matchesInner, h.to.length]
      split
      · exact matchesAll_rel ps hp h.to ha
      · trivial
    | _ => simp only [Pattern.matchesLoc, Pattern.matchesInner]; trivial
  | .seq ps, hp, p, v, h, acc, acc', ha => by
    cases h with
    | seq h =>
      simp only [Pattern.matchesLoc, Pattern.matchesInner, h.to.length, iter_length]
      split
      · exact matchesAll_rel ps hp h.to ha
      · trivial
    | _ => simp only [Pattern.matchesLoc, Pattern.matchesInner]; trivial
  | .variant l q, hp, p, v, h, acc, acc', ha => by
    cases h with
    | variant h =>
      simp only [Pattern.matchesLoc, Pattern.matchesInner]
      split
      · exact matches_rel q hp h ha
      · trivial
    | _ => simp only [Pattern.matchesLoc, Pattern.matchesInner]; trivial
  | .optNone, _, p, v, h, acc, acc', ha => by
    cases h with
    | optNone => simp only [Pattern.matchesLoc, Pattern.matchesInner]; exact ha
    | _ => simp only [Pattern.matchesLoc, Pattern.matchesInner]; trivial
  | .optSome q, hp, p, v, h, acc, acc', ha => by
    cases h with
    | optSome h => simp only [Pattern.matchesLoc, Pattern.matchesInner]; exact matches_rel q hp h ha
    | _ => simp only [Pattern.matchesLoc, Pattern.matchesInner]; trivial
  | .bool b, hp, p, v, h, acc, acc', ha => by
    simp only [Pattern.matchesLoc, Pattern.matchesInner]; exact fallback_rel h _ hp ha
  | .lit w i, hp, p, v, h, acc, acc', ha => by
    simp only [Pattern.matchesLoc, Pattern.matchesInner]; exact fallback_rel h _ hp ha
  | .int b, hp, p, v, h, acc, acc', ha => by
    simp only [Pattern.matchesLoc, Pattern.matchesInner]; exact fallback_rel h _ hp ha
  | .zConst z, hp, p, v, h, acc, acc', ha => by
    simp only [Pattern.matchesLoc, Pattern.matchesInner]; exact fallback_rel h _ hp ha
  | .zRange z, hp, p, v, h, acc, acc', ha => by
    simp only [Pattern.matchesLoc, Pattern.matchesInner]; exact fallback_rel h _ hp ha
  | .char c, hp, p, v, h, acc, acc', ha => by
    simp only [Pattern.matchesLoc, Pattern.matchesInner]; exact fallback_rel h _ hp ha

theorem matchesAll_rel : ∀ (pats : List Pattern) (_ : u.num = true → NoMachineInts pats)
    {ps : List ParsedValue} {vs : List Value} (_ : LRel (Rel u) ps vs)
    {acc : List (String × ParsedValue)} {acc' : List (String × Value)} (_ : RelF u acc acc'),
    OptRel (RelF u) (Pattern.matchesAllLoc pats ps acc) (Pattern.matchesAll pats vs acc')
  | [], _, _, _, h, acc, acc', ha => by
    cases h <;> (simp only [Pattern.matchesAllLoc, Pattern.matchesAll]; exact ha)
  | pat :: pats, hp, _, _, h, acc, acc', ha => by
    cases h with
    | nil => simp only [Pattern.matchesAllLoc, Pattern.matchesAll]; exact ha
    | cons h1 h2 =>
      have h3 := matches_rel pat (fun hn => (hp hn).1) h1 ha
      simp only [Pattern.matchesAllLoc, Pattern.matchesAll]
      obtain ⟨h4, h5⟩ | ⟨a, b, h4, h5, h6⟩ := h3.both
      · simp only [h4, h5]; trivial
      · simp only [h4, h5]; exact matchesAll_rel pats (fun hn => (hp hn).2) h2 h6
end

theorem Rel.matchesPat {p : ParsedValue} {v : Value} (h : Rel u p v) (pat : Pattern) (hp : CommonPat u pat) :
    OptRel (RelF u) (p.matchesPat pat) (v.matchesPat pat) := by
  unfold ParsedValue.matchesPat Value.matchesPat
  rw [coerceNominal_eq hp.1 h]
  exact matches_rel pat hp.2 h.coerce .nil

/-! ### Keyed search -/

section Search
variable {cmp cmp' : Value → Panicky Ordering} {key key' : Nat → Panicky Value}
variable (hc : ∀ k k', VRel u k k' → cmp k = cmp' k') (hk : ∀ i, PRel (VRel u) (key i) (key' i))
include hc hk

theorem searchLoop_rel : ∀ fuel lo hi, searchLoop cmp key fuel lo hi = searchLoop cmp' key' fuel lo hi
  | 0, _, _ => rfl
  | fuel + 1, lo, hi => by
    unfold searchLoop
    have h1 := hk ((lo + hi) / 2)
    simp only
    split
    · obtain ⟨h3, h4⟩ | ⟨a, b, h3, h4, h5⟩ := h1.both
      · simp only [h3, h4]
      · simp only [h3, h4, hc _ _ h5, searchLoop_rel fuel]
    · rfl

theorem findSorted_rel (len : Nat) : findIndexByKeySorted cmp key len = findIndexByKeySorted cmp' key' len := by
  unfold findIndexByKeySorted
  have h0 := hk 0
  have h1 := hk (len - 1)
  split
  · rfl
  · obtain ⟨h3, h4⟩ | ⟨a, b, h3, h4, h5⟩ := h0.both
    · simp only [h3, h4]
    · simp only [h3, h4, hc _ _ h5]
      obtain ⟨h3, h4⟩ | ⟨a, b, h3, h4, h5⟩ := h1.both
      · simp only [h3, h4]
      · simp only [h3, h4, hc _ _ h5, searchLoop_rel hc hk]

end Search

theorem findUnsorted_rel {eq eq' : Value → Panicky Bool} {f : ParsedValue → Panicky Value} {g : Value → Panicky Value}
    (hc : ∀ k k', VRel u k k' → eq k = eq' k')
    (hf : ∀ p v, Rel u p v → PRel (VRel u) (f p) (g v)) {ps : List ParsedValue} {vs : List Value}
    (h : LRel (Rel u) ps vs) : ∀ ix, findIndexByKeyUnsorted eq f ps ix = findIndexByKeyUnsorted eq' g vs ix := by
  induction h with
  | nil => intro ix; rfl
  | cons h1 _ ih =>
    intro ix
    simp only [findIndexByKeyUnsorted]
    obtain ⟨h3, h4⟩ | ⟨a, b, h3, h4, h5⟩ := (hf _ _ h1).both
    · simp only [h3, h4]
    · simp only [h3, h4, hc _ _ h5, ih]

theorem findByKey_rel (sorted : Bool) {f : ParsedValue → Panicky Value} {g : Value → Panicky Value}
    (hf : ∀ p v, Rel u p v → PRel (VRel u) (f p) (g v)) {w q : Value} (hq : VRel u w q)
    {ps : List ParsedValue} {s : SeqKind Value} (h : LRel (Rel u) ps s.iter) :
    PRel (Rel u) (LocExpr.findByKeyOf sorted f w ps) (Expr.findByKeyOf sorted g q s) := by
  have hidx : ∀ i, PRel (Rel u) (Panicky.unwrap ps[i]?) (s.index i) := by
    intro i; unfold SeqKind.index; rw [index_iter]; exact (h.get i).unwrap
  have h1 : ∀ k k', VRel u k k' → w.compareAsKey k = q.compareAsKey k' := by
    intro k k' hkk; rw [hq.2, hkk.2, compareAsKey_flat]
  have h2 : ∀ k k', VRel u k k' → w.eqKey k = q.eqKey k' := by
    intro k k' hkk; rw [hq.2, hkk.2, eqKey_flat]
  have hend : ∀ a b : Option Nat, a = b → PRel (Rel u)
      (match a with
        | some i => do
          let v ← Panicky.unwrap ps[i]?
          .ok (.optSome v)
        | none => .ok (.fromEvaluated .optNone))
      (match b with
        | some i => do
          let v ← s.index i
          .ok (.optSome v)
        | none => .ok .optNone) := by
    intro a b hab
    subst hab
    cases a with
    | none => exact Rel.optNone
    | some i => exact PRel.bind (hidx i) fun a b hab => Rel.optSome hab
  unfold LocExpr.findByKeyOf Expr.findByKeyOf
  simp only
  split
  · have h3 : ∀ i, PRel (VRel u) (do let v ← Panicky.unwrap ps[i]?; f v) (do let v ← s.index i; g v) :=
      fun i => PRel.bind (hidx i) fun a b hab => hf a b hab
    rw [findSorted_rel h1 h3, h.length, iter_length]
    exact PRel.bind (.same _) hend
  · rw [findUnsorted_rel h2 hf h]
    exact PRel.bind (.same _) hend

/-! ### Evaluation -/

theorem needItems_rel (hu : u.range = false) {p : ParsedValue} {v : Value} (h : Rel u p v) :
    PRel (fun ps s => LRel (Rel u) ps (SeqKind.iter s)) (LocExpr.needItems p) (Expr.needSeq v) := by
  cases h <;> first | trivial | skip
  case enumFromTo h => rw [h] at hu; cases hu
  case seq h => exact h.to

theorem needVals_rel {p : ParsedValue} {v : Value} (h : Rel u p v) :
    PRel (fun ps s => LRel (Rel u) ps (SeqKind.iter s)) (LocExpr.needVals p) (Expr.needSeq v) := by
  cases h <;> first | trivial | skip
  case seq h => exact h.to

theorem needSeq_rel {p v : Value} (h : VRel u p v) :
    PRel (fun (s s' : SeqKind Value) => LRel (VRel u) s.iter s'.iter) (Expr.needSeq p) (Expr.needSeq v) := by
  cases v with
  | seq s => obtain ⟨rfl, h1⟩ := h.ofSeq; exact h1
  | _ => obtain ⟨_, rfl⟩ := h; trivial

theorem VRel.dup {w v : Value} (h : VRel u w v) (n : Nat) :
    Rel u (.fromEvaluated (.seq (.dup n w))) (.seq (.dup n v)) := by
  rw [ParsedValue.fromEvaluated, ParsedValue.fromEvaluatedSeq]
  exact .seq (RelL.of (.replicate h.1 n))

set_option maxHeartbeats 4000000 in
mutual
theorem eval_rel : ∀ (e : Expr) (_ : CommonExpr u e) {s : LocScope Decoder} {s' : Scope Decoder}
    (_ : ScopeRel u s s'), PRel (Rel u) (e.evalLoc s) (e.eval s')
  | .var n, _, s, s', hs => by
    simp only [Expr.evalLoc, Expr.eval]; exact (hs.getValue n).unwrap
  | .bool b, _, s, s', hs => by
    simp only [Expr.evalLoc, Expr.eval]; exact Rel.bool
  | .lit w n, _, s, s', hs => by
    simp only [Expr.evalLoc, Expr.eval]; exact Rel.num (fun h => by cases h)
  | .numeric n, hc, s, s', hs => by
    simp only [Expr.evalLoc, Expr.eval, hs.numLookup]
    cases n.eval s'.numLookup with
    | ok c => exact Rel.numeric hc
    | err _ => trivial
    | panic => trivial
  | .tuple es, hc, s, s', hs => by
    simp only [Expr.evalLoc, Expr.eval]
    exact PRel.bind (evalValues_rel es hc hs) fun _ _ h => (VRel.tuple h).1
  | .tupleProj e i, hc, s, s', hs => by
    simp only [Expr.evalLoc, Expr.eval]
    exact PRel.bind (eval_rel e hc.2 hs) fun _ _ h => h.coerce.tupleProj hc.1 i
  | .record fs, hc, s, s', hs => by
    simp only [Expr.evalLoc, Expr.eval]
    obtain ⟨hne, hc⟩ := hc
    cases fs with
    | nil => exact absurd rfl hne
    | cons f fs =>
      refine PRel.bind (evalFields_rel _ hc hs) fun ps vs h => ?_
      cases ps with
      | nil => exact absurd h.2 (by simp)
      | cons p ps => exact Rel.record h.1
  | .recordProj e l, hc, s, s', hs => by
    simp only [Expr.evalLoc, Expr.eval]
    exact PRel.bind (eval_rel e hc.2 hs) fun _ _ h => h.coerce.recordProj hc.1 l
  | .variant l e, hc, s, s', hs => by
    simp only [Expr.evalLoc, Expr.eval]
    refine PRel.bind (eval_rel e hc hs) fun _ _ h => ?_
    show Rel u (.fromEvaluated (.variant _ _)) _
    rw [ParsedValue.fromEvaluated]; exact Rel.variant h.val.1
  | .seq es, hc, s, s', hs => by
    simp only [Expr.evalLoc, Expr.eval]
    exact PRel.bind (evalValues_rel es hc hs) fun _ _ h => (VRel.seqStrict h).1
  | .match_ e bs, hc, s, s', hs => by
    simp only [Expr.evalLoc, Expr.eval]
    exact PRel.bind (eval_rel e hc.1 hs) fun _ _ h => evalBranches_rel bs hc.2 hs h
  | .destructure e p b, hc, s, s', hs => by
    simp only [Expr.evalLoc, Expr.eval]
    refine PRel.bind (eval_rel e hc.1 hs) fun x y h => ?_
    have h1 := h.matchesPat p hc.2.1
    obtain ⟨h4, h5⟩ | ⟨a, b', h4, h5, h6⟩ := h1.both
    · simp only [h4, h5]; trivial
    · simp only [h4, h5]
      exact PRel.bind (eval_rel b hc.2.2 (hs.withBindings h6)) fun _ _ h => h.val.1
  | .lambda _ _, _, s, s', hs => by
    simp only [Expr.evalLoc, Expr.eval]; trivial
  | .intRel r x y, hc, s, s', hs => by
    simp only [Expr.evalLoc, Expr.eval]
    refine PRel.bind (eval_rel x hc.1 hs) fun _ _ h => ?_
    refine PRel.bind (eval_rel y hc.2 hs) fun _ _ h' => ?_
    exact PRel.lift (h.val.intRel h'.val)
  | .arith r x y, hc, s, s', hs => by
    simp only [Expr.evalLoc, Expr.eval]
    refine PRel.bind (eval_rel x hc.1 hs) fun _ _ h => ?_
    refine PRel.bind (eval_rel y hc.2 hs) fun _ _ h' => ?_
    exact PRel.lift (h.val.arith h'.val)
  | .unary op x, hc, s, s', hs => by
    simp only [Expr.evalLoc, Expr.eval]
    exact PRel.bind (eval_rel x hc hs) fun _ _ h => PRel.lift h.val.unary
  | .asNum w x, hc, s, s', hs => by
    simp only [Expr.evalLoc, Expr.eval]
    exact PRel.bind (eval_rel x hc hs) fun _ _ h => PRel.lift h.val.castTo
  | .asChar x, hc, s, s', hs => by
    simp only [Expr.evalLoc, Expr.eval]
    exact PRel.bind (eval_rel x hc.2 hs) fun _ _ h => PRel.lift (h.val.castChar hc.1)
  | .fromBytes w be x, hc, s, s', hs => by
    simp only [Expr.evalLoc, Expr.eval]
    exact PRel.bind (eval_rel x hc hs) fun _ _ h => PRel.lift h.val.wordOf
  | .seqLength x, hc, s, s', hs => by
    simp only [Expr.evalLoc, Expr.eval]
    exact PRel.bind (eval_rel x hc hs) fun _ _ h => rel_lengthOf h.coerce
  | .seqIx x y, hc, s, s', hs => by
    simp only [Expr.evalLoc, Expr.eval]
    refine PRel.bind (eval_rel x hc.1 hs) fun _ _ h => ?_
    refine PRel.bind (eval_rel y hc.2 hs) fun _ _ h' => ?_
    refine PRel.bind h'.val.usize fun a b hab => ?_
    subst hab
    exact rel_indexOf h.coerce _
  | .subSeq x y z, hc, s, s', hs => by
    simp only [Expr.evalLoc, Expr.eval]
    refine PRel.bind (eval_rel x hc.1 hs) fun _ _ h => ?_
    refine PRel.bind (eval_rel y hc.2.1 hs) fun _ _ h' => ?_
    refine PRel.bind h'.val.usize fun a b hab => ?_
    subst hab
    refine PRel.bind (eval_rel z hc.2.2 hs) fun _ _ h' => ?_
    refine PRel.bind h'.val.usize fun a b hab => ?_
    subst hab
    exact rel_subSeqOf h.coerce _ _
  | .subSeqInflate x y z, hc, s, s', hs => by
    simp only [Expr.evalLoc, Expr.eval]
    refine PRel.bind (eval_rel x hc.1 hs) fun _ _ h => ?_
    refine PRel.bind (eval_rel y hc.2.1 hs) fun _ _ h' => ?_
    refine PRel.bind h'.val.usize fun a b hab => ?_
    subst hab
    refine PRel.bind (eval_rel z hc.2.2 hs) fun _ _ h' => ?_
    refine PRel.bind h'.val.usize fun a b hab => ?_
    subst hab
    exact rel_inflateOf h.coerce _ _
  | .append x y, hc, s, s', hs => by
    simp only [Expr.evalLoc, Expr.eval]
    refine PRel.bind (eval_rel x hc.1 hs) fun _ _ h => ?_
    refine PRel.bind (eval_rel y hc.2 hs) fun _ _ h' => ?_
    exact rel_appendOf h.coerce h'.coerce
  | .flatMap f x, hc, s, s', hs => by
    simp only [Expr.evalLoc, Expr.eval]
    refine PRel.bind (eval_rel x hc.2.2 hs) fun p v h => ?_
    have h1 := h.coerce.getSequence
    unfold LocExpr.needItems
    cases h2 : p.coerceMapped.getSequence <;> cases h3 : v.coerceMapped.getSequence <;> rw [h2, h3] at h1
    · trivial
    · exact h1.elim
    · exact h1.elim
    · show PRel _ (Panicky.ok _ >>= _) _
      exact PRel.bind (x := LocExpr.flatMapLoop _ _ _) (rel_flatMapLoop (fun p v h => evalLambda_rel f hc.2.1 hs h) hc.1 (SRel.items h1) .nil)
        fun _ _ h => (VRel.seqStrict h).1
  | .flatMapAccum f a t x, hc, s, s', hs => by
    simp only [Expr.evalLoc, Expr.eval]
    refine PRel.bind (eval_rel x hc.2.2.2 hs) fun p v h => ?_
    refine PRel.bind (needItems_rel hc.1 h.coerce) fun ps sq h => ?_
    refine PRel.bind (eval_rel a hc.2.2.1 hs) fun p v h' => ?_
    exact PRel.bind (rel_flatMapAccumLoop (fun p v h => evalLambda_rel f hc.2.1 hs h) h h'.val .nil)
        fun _ _ h => (VRel.seqStrict h).1
  | .leftFold f a t x, hc, s, s', hs => by
    simp only [Expr.evalLoc, Expr.eval]
    refine PRel.bind (eval_rel x hc.2.2.2 hs) fun p v h => ?_
    refine PRel.bind (needItems_rel hc.1 h.coerce) fun ps sq h => ?_
    refine PRel.bind (eval_rel a hc.2.2.1 hs) fun p v h' => ?_
    exact PRel.lift (rel_leftFoldLoop (fun p v h => evalLambda_rel f hc.2.1 hs h) h h'.val)
  | .findByKey sorted f q x, hc, s, s', hs => by
    simp only [Expr.evalLoc, Expr.eval]
    refine PRel.bind (eval_rel x hc.2.2 hs) fun p v h => ?_
    refine PRel.bind (needVals_rel h.coerce) fun ps sq h => ?_
    refine PRel.bind (eval_rel q hc.2.1 hs) fun p v h' => ?_
    exact findByKey_rel sorted (fun p v h => evalLambda_rel f hc.1 hs h) h'.val h
  | .flatMapList f t x, hc, s, s', hs => by
    simp only [Expr.evalLoc, Expr.eval]
    refine PRel.bind (eval_rel x hc.2 hs) fun p v h => ?_
    refine PRel.bind (needSeq_rel h.val) fun ps sq h => ?_
    exact PRel.bind (rel_flatMapListLoop (fun p v h => evalLambda_rel f hc.1 hs h) h .nil)
        fun _ _ h => (VRel.seqStrict h).1
  | .dup x y, hc, s, s', hs => by
    simp only [Expr.evalLoc, Expr.eval]
    refine PRel.bind (eval_rel x hc.1 hs) fun _ _ h' => ?_
    refine PRel.bind h'.val.usize fun a b hab => ?_
    subst hab
    refine PRel.bind (eval_rel y hc.2 hs) fun _ _ h => ?_
    exact h.val.dup _
  | .enumFromTo x y, hc, s, s', hs => by
    simp only [Expr.evalLoc, Expr.eval]
    refine PRel.bind (eval_rel x hc.2.1 hs) fun _ _ h' => ?_
    refine PRel.bind h'.val.usize fun a b hab => ?_
    subst hab
    refine PRel.bind (eval_rel y hc.2.2 hs) fun _ _ h' => ?_
    refine PRel.bind h'.val.usize fun a b hab => ?_
    subst hab
    refine PRel.bind (.same _) fun a b hab => ?_
    subst hab
    refine PRel.bind (.same _) fun a b hab => ?_
    subst hab
    exact Rel.enumFromTo hc.1
  | .liftNone, _, s, s', hs => by
    simp only [Expr.evalLoc, Expr.eval]; exact Rel.optNone
  | .liftSome x, hc, s, s', hs => by
    simp only [Expr.evalLoc, Expr.eval]
    refine PRel.bind (eval_rel x hc hs) fun _ _ h => ?_
    show Rel u (.fromEvaluated (.optSome _)) _
    rw [ParsedValue.fromEvaluated]; exact Rel.optSome h.val.1

theorem evalLambda_rel : ∀ (e : Expr) (_ : CommonExpr u e) {s : LocScope Decoder} {s' : Scope Decoder}
    (_ : ScopeRel u s s') {p : ParsedValue} {v : Value} (_ : Rel u p v),
    PRel (VRel u) (e.evalLambdaLoc s p) (e.evalLambda s' v)
  | .lambda n b, hc, s, s', hs, p, v, h => by
    simp only [Expr.evalLambdaLoc, Expr.evalLambda]
    exact PRel.bind (eval_rel b hc (.single h hs)) fun _ _ h => h.val
  | .var _, _, _, _, _, _, _, _ => by simp only [Expr.evalLambdaLoc, Expr.evalLambda]; trivial
  | .bool _, _, _, _, _, _, _, _ => by simp only [Expr.evalLambdaLoc, Expr.evalLambda]; trivial
  | .lit _ _, _, _, _, _, _, _, _ => by simp only [Expr.evalLambdaLoc, Expr.evalLambda]; trivial
  | .numeric _, _, _, _, _, _, _, _ => by simp only [Expr.evalLambdaLoc, Expr.evalLambda]; trivial
  | .tuple _, _, _, _, _, _, _, _ => by simp only [Expr.evalLambdaLoc, Expr.evalLambda]; trivial
  | .tupleProj _ _, _, _, _, _, _, _, _ => by simp only [Expr.evalLambdaLoc, Expr.evalLambda]; trivial
  | .record _, _, _, _, _, _, _, _ => by simp only [Expr.evalLambdaLoc, Expr.evalLambda]; trivial
  | .recordProj _ _, _, _, _, _, _, _, _ => by simp only [Expr.evalLambdaLoc, Expr.evalLambda]; trivial
  | .variant _ _, _, _, _, _, _, _, _ => by simp only [Expr.evalLambdaLoc, Expr.evalLambda]; trivial
  | .seq _, _, _, _, _, _, _, _ => by simp only [Expr.evalLambdaLoc, Expr.evalLambda]; trivial
  | .match_ _ _, _, _, _, _, _, _, _ => by simp only [Expr.evalLambdaLoc, Expr.evalLambda]; trivial
  | .destructure _ _ _, _, _, _, _, _, _, _ => by simp only [Expr.evalLambdaLoc, Expr.evalLambda]; trivial
  | .intRel _ _ _, _, _, _, _, _, _, _ => by simp only [Expr.evalLambdaLoc, Expr.evalLambda]; trivial
  | .arith _ _ _, _, _, _, _, _, _, _ => by simp only [Expr.evalLambdaLoc, Expr.evalLambda]; trivial
  | .unary _ _, _, _, _, _, _, _, _ => by simp only [Expr.evalLambdaLoc, Expr.evalLambda]; trivial
  | .asNum _ _, _, _, _, _, _, _, _ => by simp only [Expr.evalLambdaLoc, Expr.evalLambda]; trivial
  | .asChar _, _, _, _, _, _, _, _ => by simp only [Expr.evalLambdaLoc, Expr.evalLambda]; trivial
  | .fromBytes _ _ _, _, _, _, _, _, _, _ => by simp only [Expr.evalLambdaLoc, Expr.evalLambda]; trivial
  | .seqLength _, _, _, _, _, _, _, _ => by simp only [Expr.evalLambdaLoc, Expr.evalLambda]; trivial
  | .seqIx _ _, _, _, _, _, _, _, _ => by simp only [Expr.evalLambdaLoc, Expr.evalLambda]; trivial
  | .subSeq _ _ _, _, _, _, _, _, _, _ => by simp only [Expr.evalLambdaLoc, Expr.evalLambda]; trivial
  | .subSeqInflate _ _ _, _, _, _, _, _, _, _ => by simp only [Expr.evalLambdaLoc, Expr.evalLambda]; trivial
  | .append _ _, _, _, _, _, _, _, _ => by simp only [Expr.evalLambdaLoc, Expr.evalLambda]; trivial
  | .flatMap _ _, _, _, _, _, _, _, _ => by simp only [Expr.evalLambdaLoc, Expr.evalLambda]; trivial
  | .flatMapAccum _ _ _ _, _, _, _, _, _, _, _ => by simp only [Expr.evalLambdaLoc, Expr.evalLambda]; trivial
  | .leftFold _ _ _ _, _, _, _, _, _, _, _ => by simp only [Expr.evalLambdaLoc, Expr.evalLambda]; trivial
  | .findByKey _ _ _ _, _, _, _, _, _, _, _ => by simp only [Expr.evalLambdaLoc, Expr.evalLambda]; trivial
  | .flatMapList _ _ _, _, _, _, _, _, _, _ => by simp only [Expr.evalLambdaLoc, Expr.evalLambda]; trivial
  | .dup _ _, _, _, _, _, _, _, _ => by simp only [Expr.evalLambdaLoc, Expr.evalLambda]; trivial
  | .enumFromTo _ _, _, _, _, _, _, _, _ => by simp only [Expr.evalLambdaLoc, Expr.evalLambda]; trivial
  | .liftNone, _, _, _, _, _, _, _ => by simp only [Expr.evalLambdaLoc, Expr.evalLambda]; trivial
  | .liftSome _, _, _, _, _, _, _, _ => by simp only [Expr.evalLambdaLoc, Expr.evalLambda]; trivial

theorem evalValues_rel : ∀ (es : List Expr) (_ : CommonExprs u es) {s : LocScope Decoder} {s' : Scope Decoder}
    (_ : ScopeRel u s s'), PRel (LRel (VRel u)) (Expr.evalValuesLoc es s) (Expr.evalValues es s')
  | [], _, s, s', hs => by simp only [Expr.evalValuesLoc, Expr.evalValues]; exact LRel.nil
  | e :: es, hc, s, s', hs => by
    simp only [Expr.evalValuesLoc, Expr.evalValues]
    refine PRel.bind (eval_rel e hc.1 hs) fun _ _ h => ?_
    exact PRel.bind (evalValues_rel es hc.2 hs) fun _ _ h' => LRel.cons h.val h'

theorem evalFields_rel : ∀ (fs : List (String × Expr)) (_ : CommonFields u fs)
    {s : LocScope Decoder} {s' : Scope Decoder} (_ : ScopeRel u s s'),
    PRel (fun ps vs => RelF u ps vs ∧ ps.length = fs.length) (Expr.evalFieldsLoc fs s) (Expr.evalFields fs s')
  | [], _, s, s', hs => by simp only [Expr.evalFieldsLoc, Expr.evalFields]; exact ⟨RelF.nil, rfl⟩
  | (l, e) :: fs, hc, s, s', hs => by
    simp only [Expr.evalFieldsLoc, Expr.evalFields]
    refine PRel.bind (eval_rel e hc.1 hs) fun _ _ h => ?_
    exact PRel.bind (evalFields_rel fs hc.2 hs) fun _ _ h' => ⟨RelF.cons h h'.1, by simp [h'.2]⟩

theorem evalBranches_rel : ∀ (bs : List (Pattern × Expr)) (_ : CommonBranches u bs)
    {s : LocScope Decoder} {s' : Scope Decoder} (_ : ScopeRel u s s') {p : ParsedValue} {v : Value}
    (_ : Rel u p v), PRel (Rel u) (Expr.evalBranchesLoc bs s p) (Expr.evalBranches bs s' v)
  | [], _, s, s', hs, p, v, h => by simp only [Expr.evalBranchesLoc, Expr.evalBranches]; trivial
  | (pat, e) :: bs, hc, s, s', hs, p, v, h => by
    simp only [Expr.evalBranchesLoc, Expr.evalBranches]
    have h1 := h.matchesPat pat hc.1
    obtain ⟨h4, h5⟩ | ⟨a, b', h4, h5, h6⟩ := h1.both
    · simp only [h4, h5]; exact evalBranches_rel bs hc.2.2 hs h
    · simp only [h4, h5]
      exact PRel.bind (eval_rel e hc.2.1 (hs.withBindings h6)) fun _ _ h => h.val.1
end

end Loc
end Doodle
