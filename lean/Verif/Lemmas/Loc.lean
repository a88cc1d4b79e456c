import Verif.Spec.Loc

/-! Simulation of plain evaluation by evaluation over located values. -/

namespace Doodle
namespace Loc

/-! ### Relations on outcomes and lists -/

/-- both fine and related, or both panic -/
def PRel {α β : Type} (r : α → β → Prop) : Panicky α → Panicky β → Prop
  | .ok a, .ok b => r a b
  | .panic, .panic => True
  | _, _ => False

theorem PRel.bind {α β γ δ : Type} {r : α → β → Prop} {q : γ → δ → Prop} {x : Panicky α} {y : Panicky β}
    {f : α → Panicky γ} {g : β → Panicky δ} (h : PRel r x y) (hf : ∀ a b, r a b → PRel q (f a) (g b)) :
    PRel q (x >>= f) (y >>= g) := by
  cases x with
  | ok a => cases y with
    | ok b => exact hf a b h
    | panic => exact h.elim
  | panic => cases y with
    | ok b => exact h.elim
    | panic => trivial

theorem PRel.same {α : Type} (x : Panicky α) : PRel (fun a b => a = b) x x := by
  cases x with
  | ok a => rfl
  | panic => trivial

theorem PRel.mono {α β : Type} {r q : α → β → Prop} {x : Panicky α} {y : Panicky β} (h : PRel r x y)
    (hm : ∀ a b, r a b → q a b) : PRel q x y := by
  cases x <;> cases y
  · exact hm _ _ h
  · exact h.elim
  · exact h.elim
  · trivial

/-- both absent, or both present and related -/
def OptRel {α β : Type} (r : α → β → Prop) : Option α → Option β → Prop
  | some a, some b => r a b
  | none, none => True
  | _, _ => False

theorem OptRel.unwrap {α β : Type} {r : α → β → Prop} {x : Option α} {y : Option β} (h : OptRel r x y) :
    PRel r (Panicky.unwrap x) (Panicky.unwrap y) := by
  cases x <;> cases y
  · trivial
  · exact h.elim
  · exact h.elim
  · exact h

theorem OptRel.both {α β : Type} {r : α → β → Prop} {x : Option α} {y : Option β} (h : OptRel r x y) :
    (x = none ∧ y = none) ∨ ∃ a b, x = some a ∧ y = some b ∧ r a b := by
  cases x <;> cases y
  · exact .inl ⟨rfl, rfl⟩
  · exact h.elim
  · exact h.elim
  · exact .inr ⟨_, _, rfl, rfl, h⟩

theorem PRel.both {α β : Type} {r : α → β → Prop} {x : Panicky α} {y : Panicky β} (h : PRel r x y) :
    (x = .panic ∧ y = .panic) ∨ ∃ a b, x = .ok a ∧ y = .ok b ∧ r a b := by
  cases x <;> cases y
  · exact .inr ⟨_, _, rfl, rfl, h⟩
  · exact h.elim
  · exact h.elim
  · exact .inl ⟨rfl, rfl⟩

/-- related element by element -/
inductive LRel {α β : Type} (r : α → β → Prop) : List α → List β → Prop where
  | nil : LRel r [] []
  | cons {a b as bs} : r a b → LRel r as bs → LRel r (a :: as) (b :: bs)

namespace LRel
variable {α β : Type} {r : α → β → Prop}

theorem length {as : List α} {bs : List β} (h : LRel r as bs) : as.length = bs.length := by
  induction h with
  | nil => rfl
  | cons _ _ ih => simp [ih]

theorem append {as : List α} {bs : List β} {cs : List α} {ds : List β} (h : LRel r as bs) (h' : LRel r cs ds) :
    LRel r (as ++ cs) (bs ++ ds) := by
  induction h with
  | nil => exact h'
  | cons h1 _ ih => exact .cons h1 ih

theorem snoc {as : List α} {bs : List β} {a : α} {b : β} (h : LRel r as bs) (h' : r a b) :
    LRel r (as ++ [a]) (bs ++ [b]) := h.append (.cons h' .nil)

theorem reverse {as : List α} {bs : List β} (h : LRel r as bs) : LRel r as.reverse bs.reverse := by
  induction h with
  | nil => exact .nil
  | cons h1 _ ih => simp only [List.reverse_cons]; exact ih.snoc h1

theorem get {as : List α} {bs : List β} (h : LRel r as bs) : ∀ i : Nat, OptRel r as[i]? bs[i]? := by
  induction h with
  | nil => intro i; simp [OptRel]
  | cons h1 _ ih =>
    intro i
    cases i with
    | zero => simpa [OptRel] using h1
    | succ i => simpa using ih i

theorem drop {as : List α} {bs : List β} (h : LRel r as bs) : ∀ i : Nat, LRel r (as.drop i) (bs.drop i) := by
  induction h with
  | nil => intro i; simp only [List.drop_nil]; exact .nil
  | cons h1 h2 ih =>
    intro i
    cases i with
    | zero => exact .cons h1 h2
    | succ i => simpa using ih i

theorem take {as : List α} {bs : List β} (h : LRel r as bs) : ∀ i : Nat, LRel r (as.take i) (bs.take i) := by
  induction h with
  | nil => intro i; simp only [List.take_nil]; exact .nil
  | cons h1 h2 ih =>
    intro i
    cases i with
    | zero => exact .nil
    | succ i => exact .cons h1 (ih i)

theorem replicate {a : α} {b : β} (h : r a b) : ∀ n, LRel r (List.replicate n a) (List.replicate n b)
  | 0 => .nil
  | n + 1 => by simp only [List.replicate_succ]; exact .cons h (replicate h n)

theorem mapped {γ : Type} {f : γ → α} {g : γ → β} (h : ∀ c, r (f c) (g c)) : ∀ cs : List γ, LRel r (cs.map f) (cs.map g)
  | [] => .nil
  | c :: cs => .cons (h c) (mapped h cs)

theorem isEmpty {as : List α} {bs : List β} (h : LRel r as bs) : as.isEmpty = bs.isEmpty := by
  cases h <;> rfl

end LRel

/-! ### Values -/

mutual
/-- a located value and a plain value that agree, and use only the given features -/
inductive Rel (u : Uses) : ParsedValue → Value → Prop where
  | bool {b l} : Rel u (.flat (.bool b) l) (.bool b)
  | num {k n l} : (k = .usize → u.range = true) → Rel u (.flat (.num k n) l) (.num k n)
  | char {c l} : Rel u (.flat (.char c) l) (.char c)
  | numeric {c l} : u.num = true → Rel u (.flat (.numeric c) l) (.numeric c)
  | view {o l} : Rel u (.flat (.view o) l) (.view o)
  | phantom {l} : Rel u (.flat .phantom l) .phantom
  | enumFromTo {a b l} : u.range = true → Rel u (.flat (.enumFromTo a b) l) (.enumFromTo a b)
  | tuple {ps vs l} : RelL u ps vs → Rel u (.tuple ps l) (.tuple vs)
  | record {fs gs l} : RelF u fs gs → Rel u (.record fs l) (.record gs)
  | variant {lab p v} : Rel u p v → Rel u (.variant lab p) (.variant lab v)
  | seq {ps s l} : RelL u ps s.iter → Rel u (.seq ps l) (.seq s)
  | mapped {p q v w} : u.wrap = true → Rel u p v → Rel u q w → Rel u (.mapped p q) (.mapped v w)
  | branch {n p v} : u.wrap = true → Rel u p v → Rel u (.branch n p) (.branch n v)
  | permitOk {p v} : u.wrap = true → Rel u p v → Rel u (.permitOk p) (.permitOk v)
  | permitErrNone : u.permit = true → Rel u .permitErrNone .permitErrNone
  | permitErr {p v} : u.permit = true → Rel u p v → Rel u (.permitErr p) (.permitErr v)
  | optNone : Rel u .optNone .optNone
  | optSome {p v} : Rel u p v → Rel u (.optSome p) (.optSome v)

inductive RelL (u : Uses) : List ParsedValue → List Value → Prop where
  | nil : RelL u [] []
  | cons {p v ps vs} : Rel u p v → RelL u ps vs → RelL u (p :: ps) (v :: vs)

inductive RelF (u : Uses) : List (String × ParsedValue) → List (String × Value) → Prop where
  | nil : RelF u [] []
  | cons {l p v fs gs} : Rel u p v → RelF u fs gs → RelF u ((l, p) :: fs) ((l, v) :: gs)
end

variable {u : Uses}

theorem RelL.to {ps : List ParsedValue} : ∀ {vs : List Value}, RelL u ps vs → LRel (Rel u) ps vs := by
  induction ps with
  | nil => intro vs h; cases h; exact .nil
  | cons p ps ih => intro vs h; cases h with | cons h1 h2 => exact .cons h1 (ih h2)

theorem RelL.of {ps : List ParsedValue} {vs : List Value} (h : LRel (Rel u) ps vs) : RelL u ps vs := by
  induction h with
  | nil => exact .nil
  | cons h1 _ ih => exact .cons h1 ih

theorem flatList_eq (vs : List Value) : Value.flatList vs = vs.map Value.flat := by
  induction vs with
  | nil => rfl
  | cons v vs ih => simp [Value.flatList, ih]

theorem flatSeq_eq (s : SeqKind Value) : Value.flatSeq s = s.iter.map Value.flat := by
  cases s with
  | strict vs => simp [Value.flatSeq, SeqKind.iter, flatList_eq]
  | dup n v => simp [Value.flatSeq, SeqKind.iter]

theorem eraseList_eq (ps : List ParsedValue) : ParsedValue.eraseList ps = ps.map ParsedValue.erase := by
  induction ps with
  | nil => rfl
  | cons v vs ih => simp [ParsedValue.eraseList, ih]

theorem fromEvaluatedList_eq (vs : List Value) :
    ParsedValue.fromEvaluatedList vs = vs.map ParsedValue.fromEvaluated := by
  induction vs with
  | nil => rfl
  | cons v vs ih => simp [ParsedValue.fromEvaluatedList, ih]

mutual
/-- Related values are the same value. -/
theorem Rel.erase : ∀ {p : ParsedValue} {v : Value}, Rel u p v → p.erase = v.flat
  | _, _, .bool => rfl
  | _, _, .num _ => rfl
  | _, _, .char => rfl
  | _, _, .numeric _ => rfl
  | _, _, .view => rfl
  | _, _, .phantom => rfl
  | _, _, .enumFromTo _ => rfl
  | _, _, .tuple h => by rw [ParsedValue.erase, Value.flat, RelL.erase h, flatList_eq]
  | _, _, .record h => by rw [ParsedValue.erase, Value.flat, RelF.erase h]
  | _, _, .variant h => by rw [ParsedValue.erase, Value.flat, Rel.erase h]
  | _, _, .seq h => by rw [ParsedValue.erase, Value.flat, RelL.erase h, flatSeq_eq]
  | _, _, .mapped _ h h' => by rw [ParsedValue.erase, Value.flat, Rel.erase h, Rel.erase h']
  | _, _, .branch _ h => by rw [ParsedValue.erase, Value.flat, Rel.erase h]
  | _, _, .permitOk _ h => by rw [ParsedValue.erase, Value.flat, Rel.erase h]
  | _, _, .permitErrNone _ => rfl
  | _, _, .permitErr _ h => by rw [ParsedValue.erase, Value.flat, Rel.erase h]
  | _, _, .optNone => rfl
  | _, _, .optSome h => by rw [ParsedValue.erase, Value.flat, Rel.erase h]

theorem RelL.erase : ∀ {ps : List ParsedValue} {vs : List Value}, RelL u ps vs →
    ParsedValue.eraseList ps = vs.map Value.flat
  | _, _, .nil => rfl
  | _, _, .cons h1 h2 => by rw [ParsedValue.eraseList, Rel.erase h1, RelL.erase h2]; rfl

theorem RelF.erase : ∀ {fs : List (String × ParsedValue)} {gs : List (String × Value)}, RelF u fs gs →
    ParsedValue.eraseFields fs = Value.flatFields gs
  | _, _, .nil => rfl
  | _, _, .cons h1 h2 => by rw [ParsedValue.eraseFields, Value.flatFields, Rel.erase h1, RelF.erase h2]
end

/-- A value computed by the location-tracking evaluator and the plain one. -/
def VRel (u : Uses) (w v : Value) : Prop := Rel u (.fromEvaluated w) v ∧ w = v.flat

mutual
theorem Rel.re : ∀ {p : ParsedValue} {v : Value}, Rel u p v → Rel u (.fromEvaluated v.flat) v
  | _, _, .bool => .bool
  | _, _, .num h => .num h
  | _, _, .char => .char
  | _, _, .numeric h => .numeric h
  | _, _, .view => .view
  | _, _, .phantom => .phantom
  | _, _, .enumFromTo h => .enumFromTo h
  | _, _, .tuple h => by
    rw [Value.flat, ParsedValue.fromEvaluated, flatList_eq]; exact .tuple (RelL.re h)
  | _, _, .record h => by
    rw [Value.flat, ParsedValue.fromEvaluated]; exact .record (RelF.re h)
  | _, _, .variant h => by
    rw [Value.flat, ParsedValue.fromEvaluated]; exact .variant (Rel.re h)
  | _, _, .seq h => by
    rw [Value.flat, ParsedValue.fromEvaluated, ParsedValue.fromEvaluatedSeq, flatSeq_eq]; exact .seq (RelL.re h)
  | _, _, .mapped hw h h' => by
    rw [Value.flat, ParsedValue.fromEvaluated]; exact .mapped hw (Rel.re h) (Rel.re h')
  | _, _, .branch hw h => by
    rw [Value.flat, ParsedValue.fromEvaluated]; exact .branch hw (Rel.re h)
  | _, _, .permitOk hw h => by
    rw [Value.flat, ParsedValue.fromEvaluated]; exact .permitOk hw (Rel.re h)
  | _, _, .permitErrNone hp => .permitErrNone hp
  | _, _, .permitErr hp h => by
    rw [Value.flat, ParsedValue.fromEvaluated]; exact .permitErr hp (Rel.re h)
  | _, _, .optNone => .optNone
  | _, _, .optSome h => by
    rw [Value.flat, ParsedValue.fromEvaluated]; exact .optSome (Rel.re h)

theorem RelL.re : ∀ {ps : List ParsedValue} {vs : List Value}, RelL u ps vs →
    RelL u (ParsedValue.fromEvaluatedList (vs.map Value.flat)) vs
  | _, _, .nil => .nil
  | _, _, .cons h1 h2 => by
    rw [List.map_cons, ParsedValue.fromEvaluatedList]; exact .cons (Rel.re h1) (RelL.re h2)

theorem RelF.re : ∀ {fs : List (String × ParsedValue)} {gs : List (String × Value)}, RelF u fs gs →
    RelF u (ParsedValue.fromEvaluatedFields (Value.flatFields gs)) gs
  | _, _, .nil => .nil
  | _, _, .cons h1 h2 => by
    rw [Value.flatFields, ParsedValue.fromEvaluatedFields]; exact .cons (Rel.re h1) (RelF.re h2)
end

/-- erasing a related value gives a related value -/
theorem Rel.toV {p : ParsedValue} {v : Value} (h : Rel u p v) : VRel u p.erase v := by
  rw [h.erase]; exact ⟨h.re, rfl⟩

theorem VRel.lift {w v : Value} (h : VRel u w v) : Rel u (.fromEvaluated w) v := h.1

theorem PRel.lift {x y : Panicky Value} (h : PRel (VRel u) x y) :
    PRel (Rel u) (LocExpr.lift x) y := by
  cases x <;> cases y
  · exact h.1
  · exact h.elim
  · exact h.elim
  · trivial

theorem Rel.coerce : ∀ {p : ParsedValue} {v : Value}, Rel u p v → Rel u p.coerceMapped v.coerceMapped
  | _, _, .mapped _ _ h => by have r := Rel.coerce h; exact r
  | _, _, .branch _ h => by have r := Rel.coerce h; exact r
  | _, _, .permitOk _ h => by have r := Rel.coerce h; exact r
  | _, _, .bool => .bool
  | _, _, .num h => .num h
  | _, _, .char => .char
  | _, _, .numeric h => .numeric h
  | _, _, .view => .view
  | _, _, .phantom => .phantom
  | _, _, .enumFromTo h => .enumFromTo h
  | _, _, .tuple h => .tuple h
  | _, _, .record h => .record h
  | _, _, .variant h => .variant h
  | _, _, .seq h => .seq h
  | _, _, .permitErrNone h => .permitErrNone h
  | _, _, .permitErr hp h => .permitErr hp h
  | _, _, .optNone => .optNone
  | _, _, .optSome h => .optSome h

/-- the value of an expression, coerced and erased -/
theorem Rel.val {p : ParsedValue} {v : Value} (h : Rel u p v) :
    VRel u p.coerceMapped.erase v.coerceMapped := h.coerce.toV

theorem coerceMapped_idem : ∀ v : Value, v.coerceMapped.coerceMapped = v.coerceMapped
  | .mapped _ v => coerceMapped_idem v
  | .branch _ v => coerceMapped_idem v
  | .permitOk v => coerceMapped_idem v
  | .bool _ | .num _ _ | .char _ | .numeric _ | .view _ | .phantom | .enumFromTo _ _ | .optNone
  | .optSome _ | .tuple _ | .record _ | .variant _ _ | .seq _ | .permitErrNone | .permitErr _ => rfl

/-- without wrappers there is nothing to unwrap -/
theorem Rel.unwrapped (hu : u.wrap = false) {p : ParsedValue} {v : Value} (h : Rel u p v) :
    v.coerceMapped = v := by
  cases h <;> first | rfl | simp_all

/-! ### Operations on values -/

theorem Rel.tupleProj (hu : u.permit = false) {p : ParsedValue} {v : Value} (h : Rel u p v) (i : Nat) :
    PRel (Rel u) (p.tupleProj i) (v.tupleProj i) := by
  cases h <;> first | trivial | (simp_all; done) | skip
  case tuple h => exact (RelL.to h |>.get i).unwrap

theorem RelF.find {fs : List (String × ParsedValue)} (label : String) : ∀ {gs : List (String × Value)},
    RelF u fs gs → OptRel (Rel u) ((fs.find? (fun f => label == f.1)).map (·.2))
      ((gs.find? (fun f => label == f.1)).map (·.2)) := by
  induction fs with
  | nil => intro gs h; cases h; trivial
  | cons f fs ih =>
    intro gs h
    cases h with
    | @cons l p v _ gs h1 h2 =>
      by_cases hl : label == l
      · simp only [List.find?_cons, hl]; exact h1
      · simp only [List.find?_cons, Bool.not_eq_true] at *
        simp only [hl]; exact ih h2

theorem Rel.recordProj (hu : u.permit = false) {p : ParsedValue} {v : Value} (h : Rel u p v) (l : String) :
    PRel (Rel u) (p.recordProj l) (v.recordProj l) := by
  cases h <;> first | trivial | (simp_all; done) | skip
  case record h => exact (h.find l).unwrap

theorem unwrapUsize_flat (v : Value) : v.flat.unwrapUsize = v.unwrapUsize := by cases v <;> rfl
theorem unwrapBool_flat (v : Value) : v.flat.unwrapBool = v.unwrapBool := by cases v <;> rfl
theorem getAsU8_flat (v : Value) : v.flat.getAsU8 = v.getAsU8 := by
  cases v <;> first | rfl | (rename_i k n; cases k <;> first | rfl | (rename_i w; cases w <;> rfl))

theorem VRel.usize {w v : Value} (h : VRel u w v) : PRel (fun a b => a = b) w.unwrapUsize v.unwrapUsize := by
  rw [h.2, unwrapUsize_flat]; exact .same _

theorem VRel.bool {w v : Value} (h : VRel u w v) : PRel (fun a b => a = b) w.unwrapBool v.unwrapBool := by
  rw [h.2, unwrapBool_flat]; exact .same _

/-- a value that contains no other value -/
theorem VRel.num {k : UKind} {n : Fin k.card} (h : k = .usize → u.range = true) :
    VRel u (.num k n) (.num k n) := ⟨.num h, rfl⟩

theorem mkNum_rel {k : UKind} (h : k = .usize → u.range = true) (n : Nat) :
    PRel (VRel u) (Value.mkNum k n) (Value.mkNum k n) := by
  unfold Value.mkNum
  split
  · exact VRel.num h
  · trivial

theorem intRel_flat (r : IntRel) (x y : Value) : Value.intRel r x.flat y.flat = Value.intRel r x y := by
  cases x <;> cases y <;> rfl

theorem intRel_bool {r : IntRel} {x y v : Value} (h : Value.intRel r x y = .ok v) : ∃ b, v = .bool b := by
  unfold Value.intRel at h
  split at h
  · split at h
    · cases h; exact ⟨_, rfl⟩
    · cases h
  · cases h; exact ⟨_, rfl⟩
  · split at h
    · cases h; exact ⟨_, rfl⟩
    · cases h
  · split at h
    · cases h; exact ⟨_, rfl⟩
    · cases h
  · cases h

theorem VRel.intRel {r : IntRel} {x y x' y' : Value} (hx : VRel u x x') (hy : VRel u y y') :
    PRel (VRel u) (Value.intRel r x y) (Value.intRel r x' y') := by
  rw [hx.2, hy.2, intRel_flat]
  cases h : Value.intRel r x' y' with
  | ok v => obtain ⟨b, rfl⟩ := intRel_bool h; exact ⟨.bool, rfl⟩
  | panic => trivial

theorem arithNum_rel {k : UKind} (h : k = .usize → u.range = true) (op : Arith) (l r : Nat) :
    PRel (VRel u) (Value.arithNum op k l r) (Value.arithNum op k l r) := by
  cases op <;> simp only [Value.arithNum] <;> first
    | exact mkNum_rel h _
    | trivial
    | (split <;> first | exact mkNum_rel h _ | trivial)

theorem arith_flat (op : Arith) (x y : Value) : Value.arith op x.flat y.flat = Value.arith op x y := by
  cases x <;> cases y <;> cases op <;> rfl

theorem VRel.arith {op : Arith} {x y x' y' : Value} (hx : VRel u x x') (hy : VRel u y y') :
    PRel (VRel u) (Value.arith op x y) (Value.arith op x' y') := by
  have hk : ∀ k n, x' = .num k n → k = .usize → u.range = true := by
    intro k n he; subst he
    have := hx.1
    rw [hx.2] at this
    cases this; assumption
  rw [hx.2, hy.2, arith_flat]
  have hbool : ∀ b, VRel u (.bool b) (.bool b) := fun b => ⟨.bool, rfl⟩
  unfold Value.arith
  split
  · split
    · exact hbool _
    · trivial
  · split
    · exact hbool _
    · trivial
  · split
    · next k l k' r =>
      split
      · exact arithNum_rel (hk _ _ rfl) _ _ _
      · trivial
    · trivial

theorem unary_flat (op : UnaryOp) (x : Value) : Value.unary op x.flat = Value.unary op x := by
  cases x <;> cases op <;> rfl

theorem VRel.unary {op : UnaryOp} {x x' : Value} (hx : VRel u x x') :
    PRel (VRel u) (Value.unary op x) (Value.unary op x') := by
  have hk : ∀ k n, x' = .num k n → k = .usize → u.range = true := by
    intro k n he; subst he
    have := hx.1
    rw [hx.2] at this
    cases this; assumption
  rw [hx.2, unary_flat]
  cases op <;> cases x' <;> simp only [Value.unary] <;> first
    | trivial
    | exact ⟨.bool, rfl⟩
    | exact mkNum_rel (hk _ _ rfl) _
    | (split <;> first | exact mkNum_rel (hk _ _ rfl) _ | trivial)

theorem VRel.castTo {w : Num.BitWidth} {x x' : Value} (hx : VRel u x x') :
    PRel (VRel u) (Expr.castTo w x) (Expr.castTo w x') := by
  rw [hx.2]
  cases x' <;> first | trivial | exact mkNum_rel (fun h => by cases h) _

theorem VRel.castChar (hu : u.range = false) {x x' : Value} (hx : VRel u x x') :
    PRel (VRel u) (LocExpr.castChar x) (Expr.castChar x') := by
  obtain ⟨h1, rfl⟩ := hx
  cases x' with
  | num k n =>
    cases k with
    | fixed w =>
      simp only [Value.flat, LocExpr.castChar, Expr.castChar]
      split
      · exact ⟨.char, rfl⟩
      · trivial
    | usize =>
      cases h1 with
      | num h => rw [h rfl] at hu; cases hu
  | _ => trivial

theorem u8List_flat (vs : List Value) : Expr.u8List (vs.map Value.flat) = Expr.u8List vs := by
  induction vs with
  | nil => rfl
  | cons v vs ih =>
    rw [List.map_cons]
    cases v with
    | num k n =>
      cases k with
      | usize => rfl
      | fixed w =>
        cases w <;> first | rfl | (simp only [Value.flat, Expr.u8List, ih])
    | _ => rfl

theorem VRel.wordOf {w : Num.BitWidth} {be : Bool} {x x' : Value} (hx : VRel u x x') :
    PRel (VRel u) (Expr.wordOf w be x) (Expr.wordOf w be x') := by
  rw [hx.2]
  cases x' with
  | tuple vs =>
    simp only [Value.flat, Expr.wordOf, flatList_eq, u8List_flat]
    split
    · split
      · exact mkNum_rel (fun h => by cases h) _
      · trivial
    · trivial
  | _ => trivial

/-! ### Sequences -/

/-- related sequences -/
inductive SRel (u : Uses) : ParsedValue.LocSeq → Value.ValueSeq → Prop where
  | vals {ps s} : LRel (Rel u) ps s.iter → SRel u (.vals ps) (.vals s)
  | range {a b} : u.range = true → SRel u (.range a b) (.range a b)

theorem Rel.getSequence {p : ParsedValue} {v : Value} (h : Rel u p v) :
    OptRel (SRel u) p.getSequence v.getSequence := by
  cases h <;> first | trivial | skip
  case enumFromTo h => exact .range h
  case seq h => exact .vals h.to

theorem iter_length (s : SeqKind Value) : s.iter.length = s.len := by
  cases s <;> simp [SeqKind.iter, SeqKind.len]

theorem SRel.len {q : ParsedValue.LocSeq} {r : Value.ValueSeq} (h : SRel u q r) : q.len = r.len := by
  cases h with
  | vals h => simp only [ParsedValue.LocSeq.len, Value.ValueSeq.len, h.length, iter_length]
  | range _ => rfl

theorem SRel.isEmpty {q : ParsedValue.LocSeq} {r : Value.ValueSeq} (h : SRel u q r) : q.isEmpty = r.isEmpty := by
  cases h with
  | @vals ps s h =>
    simp only [ParsedValue.LocSeq.isEmpty, Value.ValueSeq.isEmpty, h.isEmpty]
    cases s with
    | strict vs => rfl
    | dup n v => cases n <;> rfl
  | range _ => rfl

theorem ofUsize_rel (hu : u.range = true) (n : Nat) : Rel u (.ofUsize n) (.ofUsize n) := .num fun _ => hu

theorem SRel.items {q : ParsedValue.LocSeq} {r : Value.ValueSeq} (h : SRel u q r) :
    LRel (Rel u) q.items r.items := by
  cases h with
  | vals h => exact h
  | range hu => exact .mapped (ofUsize_rel hu) _

theorem index_iter (s : SeqKind Value) (i : Nat) : s.get i = s.iter[i]? := by
  cases s with
  | strict vs => rfl
  | dup n v => simp only [SeqKind.get, SeqKind.iter, List.getElem?_replicate]

theorem rel_lengthOf {p : ParsedValue} {v : Value} (h : Rel u p v) :
    PRel (Rel u) (LocExpr.lengthOf p) (Expr.lengthOf v) := by
  have hs := h.getSequence
  unfold LocExpr.lengthOf Expr.lengthOf
  cases h1 : p.getSequence <;> cases h2 : v.getSequence <;> rw [h1, h2] at hs
  · trivial
  · exact hs.elim
  · exact hs.elim
  · simp only
    rw [SRel.len hs]; exact PRel.lift (mkNum_rel (fun h => by cases h) _)

theorem rel_indexOf {p : ParsedValue} {v : Value} (h : Rel u p v) (i : Nat) :
    PRel (Rel u) (LocExpr.indexOf p i) (Expr.indexOf v i) := by
  have hs := h.getSequence
  unfold LocExpr.indexOf Expr.indexOf
  cases h1 : p.getSequence <;> cases h2 : v.getSequence <;> rw [h1, h2] at hs
  · trivial
  · exact hs.elim
  · exact hs.elim
  · cases hs with
    | @vals ps s hs =>
      simp only [SeqKind.index, index_iter]
      exact (hs.get i).unwrap
    | range hu =>
      simp only
      split
      · exact ofUsize_rel hu _
      · trivial

theorem rel_subSeqOf {p : ParsedValue} {v : Value} (h : Rel u p v) (a n : Nat) :
    PRel (Rel u) (LocExpr.subSeqOf p a n) (Expr.subSeqOf v a n) := by
  have hs := h.getSequence
  unfold LocExpr.subSeqOf Expr.subSeqOf
  cases h1 : p.getSequence <;> cases h2 : v.getSequence <;> rw [h1, h2] at hs
  · trivial
  · exact hs.elim
  · exact hs.elim
  · cases hs with
    | @vals ps s hs =>
      have hl := hs.length
      cases s with
      | strict vs =>
        simp only [SeqKind.iter] at hs hl
        simp only [SeqKind.subSeq, hl, List.length_drop]
        split
        · split
          · exact .seq (RelL.of ((hs.drop a).take n))
          · trivial
        · trivial
      | dup m w =>
        simp only [SeqKind.iter, List.length_replicate] at hs hl
        simp only [SeqKind.subSeq, hl, List.length_drop]
        by_cases h3 : a + n ≤ m
        · rw [if_pos (by omega), if_pos (by omega), if_pos h3]
          refine .seq (RelL.of ?_)
          have := (hs.drop a).take n
          rw [List.drop_replicate, List.take_replicate, Nat.min_eq_left (by omega)] at this
          exact this
        · rw [if_neg h3]
          split
          · rw [if_neg (by omega)]; trivial
          · trivial
    | range hu =>
      simp only
      refine PRel.bind (.same _) fun x y hxy => ?_
      subst hxy
      refine PRel.bind (.same _) fun x1 y hxy => ?_
      subst hxy
      refine PRel.bind (.same _) fun x2 y hxy => ?_
      subst hxy
      exact .enumFromTo hu

theorem rel_inflateSeqLoop {ps0 : List ParsedValue} {s : SeqKind Value} (hs : LRel (Rel u) ps0 s.iter) (a : Nat) :
    ∀ n i ps vs, LRel (Rel u) ps vs →
      PRel (LRel (Rel u)) (Prelude.inflateSeqLoop (.strict ps0) a ps i n) (Prelude.inflateSeqLoop s a vs i n)
  | 0, _, _, _, h => h
  | n + 1, i, ps, vs, h => by
    unfold Prelude.inflateSeqLoop
    have hl : (SeqKind.strict ps0).len = s.len := by rw [← iter_length, ← hs.length]; rfl
    simp only [hl]
    split
    · have h1 : OptRel (Rel u) ((SeqKind.strict ps0).get (i + a)) (s.get (i + a)) := by
        rw [index_iter]; exact hs.get _
      unfold SeqKind.index
      cases h2 : (SeqKind.strict ps0).get (i + a) <;> cases h3 : s.get (i + a) <;> rw [h2, h3] at h1
      · trivial
      · exact h1.elim
      · exact h1.elim
      · exact rel_inflateSeqLoop hs a n _ _ _ (h.snoc h1)
    · have h1 := h.get (i + a - s.len)
      cases h2 : ps[i + a - s.len]? <;> cases h3 : vs[i + a - s.len]? <;> rw [h2, h3] at h1
      · trivial
      · exact h1.elim
      · exact h1.elim
      · exact rel_inflateSeqLoop hs a n _ _ _ (h.snoc h1)

theorem rel_inflateRangeLoop (hu : u.range = true) (len a : Nat) :
    ∀ n it i ps vs, LRel (Rel u) ps vs →
      PRel (LRel (Rel u)) (Prelude.inflateRangeLoop ParsedValue.ofUsize len a ps it i n)
        (Prelude.inflateRangeLoop Value.ofUsize len a vs it i n)
  | 0, [], _, _, _, h => h
  | 0, _ :: _, _, _, _, h => h
  | n + 1, x :: it, i, ps, vs, h => by
    simp only [Prelude.inflateRangeLoop]
    exact rel_inflateRangeLoop hu len a n it _ _ _ (h.snoc (ofUsize_rel hu _))
  | n + 1, [], i, ps, vs, h => by
    simp only [Prelude.inflateRangeLoop]
    split
    · trivial
    · have h1 := h.get (i + a - len)
      cases h2 : ps[i + a - len]? <;> cases h3 : vs[i + a - len]? <;> rw [h2, h3] at h1
      · trivial
      · exact h1.elim
      · exact h1.elim
      · exact rel_inflateRangeLoop hu len a n _ _ _ _ (h.snoc h1)

theorem rel_inflateOf {p : ParsedValue} {v : Value} (h : Rel u p v) (a n : Nat) :
    PRel (Rel u) (LocExpr.inflateOf p a n) (Expr.inflateOf v a n) := by
  have hs := h.getSequence
  unfold LocExpr.inflateOf Expr.inflateOf
  cases h1 : p.getSequence <;> cases h2 : v.getSequence <;> rw [h1, h2] at hs
  · trivial
  · exact hs.elim
  · exact hs.elim
  · cases hs with
    | vals hs =>
      exact PRel.bind (rel_inflateSeqLoop hs a n _ _ _ .nil) fun x y hxy => Rel.seq (RelL.of hxy)
    | range hu =>
      exact PRel.bind (rel_inflateRangeLoop hu _ _ _ _ _ _ _ .nil) fun x y hxy => Rel.seq (RelL.of hxy)

theorem intoVec_iter (s : SeqKind Value) : s.intoVec = s.iter := by cases s <;> rfl

theorem rel_appendOf {p q : ParsedValue} {v w : Value} (h : Rel u p v) (h' : Rel u q w) :
    PRel (Rel u) (LocExpr.appendOf p q) (Expr.appendOf v w) := by
  have hs := h.getSequence
  have hs' := h'.getSequence
  unfold LocExpr.appendOf Expr.appendOf
  cases h1 : p.getSequence <;> cases h2 : v.getSequence <;> rw [h1, h2] at hs
  · trivial
  · exact hs.elim
  · exact hs.elim
  cases h1 : q.getSequence <;> cases h2 : w.getSequence <;> rw [h1, h2] at hs'
  · trivial
  · exact hs'.elim
  · exact hs'.elim
  simp only [SRel.isEmpty hs, SRel.isEmpty hs']
  split
  · exact h'
  · split
    · exact h
    · next h3 h4 =>
      cases hs with
      | @vals ps s hs =>
        cases hs' with
        | @vals qs t hs' =>
          refine .seq (RelL.of ?_)
          have h3 : ¬s.isEmpty = true := h3
          have h4 : ¬t.isEmpty = true := h4
          simp only [SeqKind.append, if_neg h3, if_neg h4, intoVec_iter]
          exact hs.append hs'
        | range _ => trivial
      | range _ => cases hs' <;> trivial

/-- lists of values built by the two evaluators -/
theorem VRel.seqStrict {ws vs : List Value} (h : LRel (VRel u) ws vs) :
    VRel u (.seq (.strict ws)) (.seq (.strict vs)) := by
  constructor
  · rw [ParsedValue.fromEvaluated, ParsedValue.fromEvaluatedSeq, fromEvaluatedList_eq]
    refine .seq (RelL.of ?_)
    induction h with
    | nil => exact .nil
    | cons h1 _ ih => exact .cons h1.1 ih
  · rw [Value.flat, Value.flatSeq, flatList_eq]
    congr 2
    induction h with
    | nil => rfl
    | cons h1 _ ih => rw [List.map_cons, h1.2, ih]

theorem VRel.tuple {ws vs : List Value} (h : LRel (VRel u) ws vs) :
    VRel u (.tuple ws) (.tuple vs) := by
  constructor
  · rw [ParsedValue.fromEvaluated, fromEvaluatedList_eq]
    refine .tuple (RelL.of ?_)
    induction h with
    | nil => exact .nil
    | cons h1 _ ih => exact .cons h1.1 ih
  · rw [Value.flat, flatList_eq]
    congr 1
    induction h with
    | nil => rfl
    | cons h1 _ ih => rw [List.map_cons, h1.2, ih]

theorem LRel.vals {ps : List ParsedValue} {vs : List Value} (h : LRel (Rel u) ps vs) :
    LRel (VRel u) (vs.map Value.flat) vs := by
  induction h with
  | nil => exact .nil
  | cons h1 _ ih => exact .cons ⟨h1.re, rfl⟩ ih

/-- the shape of a related pair of computed values -/
theorem VRel.cases {w v : Value} (h : VRel u w v) : ∃ p, Rel u p v ∧ w = v.flat := ⟨_, h.1, h.2⟩

theorem VRel.ofSeq {s : SeqKind Value} {w : Value} (h : VRel u w (.seq s)) :
    w = .seq (.strict (s.iter.map Value.flat)) ∧ LRel (VRel u) (s.iter.map Value.flat) s.iter := by
  obtain ⟨h1, rfl⟩ := h
  refine ⟨by rw [Value.flat, flatSeq_eq], ?_⟩
  rw [Value.flat, ParsedValue.fromEvaluated] at h1
  cases h1 with | seq h => exact h.to.vals

theorem VRel.ofTuple {vs : List Value} {w : Value} (h : VRel u w (.tuple vs)) :
    w = .tuple (vs.map Value.flat) ∧ LRel (VRel u) (vs.map Value.flat) vs := by
  obtain ⟨h1, rfl⟩ := h
  refine ⟨by rw [Value.flat, flatList_eq], ?_⟩
  rw [Value.flat, ParsedValue.fromEvaluated] at h1
  cases h1 with | tuple h => exact h.to.vals

section Loops
variable {f : ParsedValue → Panicky Value} {g : Value → Panicky Value}
variable (hf : ∀ p v, Rel u p v → PRel (VRel u) (f p) (g v))
include hf

theorem rel_flatMapLoop (hu : u.range = false) : ∀ {ps : List ParsedValue} {vs : List Value}, LRel (Rel u) ps vs →
    ∀ {ws xs}, LRel (VRel u) ws xs →
    PRel (LRel (VRel u)) (LocExpr.flatMapLoop f ws ps) (Expr.flatMapLoop g xs vs) := by
  intro ps vs h
  induction h with
  | nil => intro ws xs hw; exact hw
  | cons h1 _ ih =>
    intro ws xs hw
    simp only [LocExpr.flatMapLoop, Expr.flatMapLoop]
    refine PRel.bind (hf _ _ h1) fun r r' hr => ?_
    cases r' with
    | seq s =>
      obtain ⟨rfl, h2⟩ := hr.ofSeq
      exact ih (hw.append h2)
    | enumFromTo a b =>
      obtain ⟨h3, rfl⟩ := hr
      cases h3 with
      | enumFromTo h => rw [h] at hu; cases hu
    | _ => obtain ⟨_, rfl⟩ := hr; trivial

omit hf in
theorem pair_rel {a v : Value} {w : Value} {p : ParsedValue} (ha : VRel u w a) (hv : Rel u p v) :
    Rel u (.fromEvaluated (.tuple [w, p.erase])) (.tuple [a, v]) :=
  (VRel.tuple (.cons ha (.cons hv.toV .nil))).lift

theorem rel_flatMapAccumLoop : ∀ {ps : List ParsedValue} {vs : List Value}, LRel (Rel u) ps vs →
    ∀ {a b ws xs}, VRel u a b → LRel (VRel u) ws xs →
    PRel (LRel (VRel u)) (LocExpr.flatMapAccumLoop f a ws ps) (Expr.flatMapAccumLoop g b xs vs) := by
  intro ps vs h
  induction h with
  | nil => intro a b ws xs _ hw; exact hw
  | cons h1 _ ih =>
    intro a b ws xs ha hw
    simp only [LocExpr.flatMapAccumLoop, Expr.flatMapAccumLoop]
    refine PRel.bind (hf _ _ (pair_rel ha h1)) fun r r' hr => ?_
    cases r' with
    | tuple ts =>
      obtain ⟨rfl, h2⟩ := hr.ofTuple
      rcases ts with _ | ⟨x, _ | ⟨y, _ | ⟨z, ts⟩⟩⟩
      · trivial
      · trivial
      · obtain _ | ⟨hx, hy⟩ := h2
        obtain _ | ⟨hy, _⟩ := hy
        cases y with
        | seq s =>
          obtain ⟨h3, h4⟩ := hy.ofSeq
          simp only [List.map_cons, List.map_nil, h3]
          exact ih hx (hw.append h4)
        | _ => trivial
      · cases y <;> trivial
    | _ => obtain ⟨_, rfl⟩ := hr; trivial

theorem rel_leftFoldLoop : ∀ {ps : List ParsedValue} {vs : List Value}, LRel (Rel u) ps vs →
    ∀ {a b}, VRel u a b →
    PRel (VRel u) (LocExpr.leftFoldLoop f a ps) (Expr.leftFoldLoop g b vs) := by
  intro ps vs h
  induction h with
  | nil => intro a b ha; exact ha
  | cons h1 _ ih =>
    intro a b ha
    simp only [LocExpr.leftFoldLoop, Expr.leftFoldLoop]
    exact PRel.bind (hf _ _ (pair_rel ha h1)) fun r r' hr => ih hr

theorem rel_flatMapListLoop : ∀ {ps : List Value} {vs : List Value}, LRel (VRel u) ps vs →
    ∀ {ws xs}, LRel (VRel u) ws xs →
    PRel (LRel (VRel u)) (LocExpr.flatMapListLoop f ws ps) (Expr.flatMapListLoop g xs vs) := by
  intro ps vs h
  induction h with
  | nil => intro ws xs hw; exact hw
  | cons h1 _ ih =>
    intro ws xs hw
    simp only [LocExpr.flatMapListLoop, Expr.flatMapListLoop]
    refine PRel.bind (hf _ _ (VRel.tuple (.cons (.seqStrict hw) (.cons h1 .nil))).lift) fun r r' hr => ?_
    cases r' with
    | seq s =>
      obtain ⟨rfl, h2⟩ := hr.ofSeq
      exact ih (hw.append h2)
    | _ => obtain ⟨_, rfl⟩ := hr; trivial

end Loops

theorem compareAsKey_flat (q k : Value) : q.flat.compareAsKey k.flat = q.compareAsKey k := by
  cases q with
  | num a _ => cases a <;> cases k <;> first | rfl | (rename_i b _; cases b <;> rfl)
  | _ => rfl
theorem eqKey_flat (q k : Value) : q.flat.eqKey k.flat = q.eqKey k := by
  cases q with
  | num a _ => cases a <;> cases k <;> first | rfl | (rename_i b _; cases b <;> rfl)
  | _ => rfl

end Loc
end Doodle
