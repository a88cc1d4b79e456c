import Verif.Model.NumCodegen
import Verif.Spec.NumCodegen

/-! Lemmas for C60: the code made for one operation. -/

namespace Doodle
namespace Num
namespace Codegen

open Tc (TypedExpr)
open CodegenSpec

/-- every machine type -/
def allReps : List MachineRep := [U8, U16, U32, U64, I8, I16, I32, I64]

theorem mem_allReps (r : MachineRep) : r ∈ allReps := by
  obtain ⟨s, w⟩ := r
  cases s <;> cases w <;> decide

theorem bind_ok_ok {α β : Type} (a : α) (f : α → Panicky β) : (Panicky.ok a).bind f = f a := rfl

/-- `Mixed64`, decided -/
def mixed64 (l r o : MachineRep) : Bool :=
  o.bitWidth.bits == 64 && l != r && (l == o && o.isSuperset r || r == o && o.isSuperset l)

theorem mixed64_iff (l r o : MachineRep) : mixed64 l r o = true ↔ Mixed64 l r o := by
  simp only [mixed64, Mixed64, Bool.and_eq_true, Bool.or_eq_true, beq_iff_eq, bne_iff_ne, ne_eq, and_assoc,
    C38_isSuperset]

/-- what is needed of the class of a binary operation -/
def binGood (l r o : MachineRep) : Bool :=
  match classifyBinary l r o with
  | .ok (.pure t) => binSig [t] == some (l, r, o) && !mixed64 l r o
  | .ok (.homWide t o') => binSig [t, o'] == some (l, r, o) && !mixed64 l r o
  | .ok (.hetWide l' r' o') => binSig [l', r', o'] == if mixed64 l r o then none else some (l, r, o)
  | .ok (.homLossy t o') => t == l && t == r && o' == o && !mixed64 l r o
  | .ok (.hetLossy l' r' o') => l' == l && r' == r && o' == o && !mixed64 l r o
  | .panic => false

theorem binGood_all (l r o : MachineRep) : binGood l r o = true := by
  have : ∀ l ∈ allReps, ∀ r ∈ allReps, ∀ o ∈ allReps, binGood l r o = true := by decide +kernel
  exact this l (mem_allReps l) r (mem_allReps r) o (mem_allReps o)

theorem binSig_mem {ts : List MachineRep} {l r o : MachineRep} (h : binSig ts = some (l, r, o)) :
    (l, r, o) ∈ binTable := by
  unfold binSig at h
  simp only [binTable, List.mem_append]
  split at h
  · split at h
    · rename_i hm
      cases h
      exact .inl (.inl hm)
    · cases h
  · split at h
    · rename_i hm
      cases h
      exact .inl (.inr hm)
    · cases h
  · split at h
    · rename_i hm
      cases h
      exact .inr hm
    · cases h
  · cases h

/-- the part of `synthesize` that comes after the operands of a binary operation -/
def binCode (op : BasicBinOp) (l r o : MachineRep) (a b : Code) : Panicky Code :=
  (classifyBinary l r o).bind fun cls =>
    match cls with
    | .pure _ | .homWide _ _ | .hetWide _ _ _ => .ok (.call2 (binFName op cls) a b)
    | .homLossy t0 t2 => .ok (.fallback2 t0 t0 t2 (binFName op cls) op a b)
    | .hetLossy t0 t1 t2 => .ok (.fallback2 t0 t1 t2 (binFName op cls) op a b)

/-- the outcome of one binary operation: exact, but for the least number of a signed type divided by -1 -/
def BinOutcome (op : BasicBinOp) (o : MachineRep) (x y : Int) (e : Eval) : Prop :=
  ExactIn o (mathOp op x y) e ∨
    (e = .nan ∧ (op = .div ∨ op = .rem) ∧ o.isSigned = true ∧ x = o.asBounds.min ∧ y = -1)

theorem binBody_exact (op : BasicBinOp) {l r o : MachineRep} (hm : (l, r, o) ∈ binTable) :
    ∃ body, binBody (binBase op) o = some body ∧
      ∀ x y, l.Mem x → r.Mem y → ∃ e, body x y = .ok e ∧ BinOutcome op o x y e := by
  have quot : ∀ op : BasicBinOp, op = .div ∨ op = .rem → ∀ x y, l.Mem x → r.Mem y →
      BinOutcome op o x y (evalQuot op o x y) := by
    intro op hop x y hx hy
    by_cases hc : o.isSigned = true ∧ x = o.asBounds.min ∧ y = -1
    · right
      refine ⟨?_, hop, hc⟩
      obtain ⟨h1, h2, h3⟩ := hc
      have hn : (evalQuot op o o.asBounds.min (-1)) = .nan := by
        have : ∀ o ∈ allReps, o.isSigned = true → evalQuot .div o o.asBounds.min (-1) = .nan ∧
            evalQuot .rem o o.asBounds.min (-1) = .nan := by decide +kernel
        have := this o (mem_allReps o) h1
        rcases hop with rfl | rfl
        · exact this.1
        · exact this.2
      rw [h2, h3]
      exact hn
    · exact .inl (C36_div_rem_partial op hop l r o hm x y hx hy hc)
  cases op with
  | add => exact ⟨_, rfl, fun x y hx hy => by
      obtain ⟨e, h1, h2⟩ := C36_add_sub_mul .add (.inl rfl) l r o hm x y hx hy
      exact ⟨e, h1, .inl h2⟩⟩
  | sub => exact ⟨_, rfl, fun x y hx hy => by
      obtain ⟨e, h1, h2⟩ := C36_add_sub_mul .sub (.inr (.inl rfl)) l r o hm x y hx hy
      exact ⟨e, h1, .inl h2⟩⟩
  | mul => exact ⟨_, rfl, fun x y hx hy => by
      obtain ⟨e, h1, h2⟩ := C36_add_sub_mul .mul (.inr (.inr rfl)) l r o hm x y hx hy
      exact ⟨e, h1, .inl h2⟩⟩
  | div => exact ⟨_, rfl, fun x y hx hy => ⟨_, rfl, quot .div (.inl rfl) x y hx hy⟩⟩
  | rem => exact ⟨_, rfl, fun x y hx hy => ⟨_, rfl, quot .rem (.inr rfl) x y hx hy⟩⟩

theorem binBase_types (op : BasicBinOp) (cls : BinOpClass) : (binFName op cls).base = binBase op := by
  cases cls <;> rfl

theorem call2_good (op : BasicBinOp) {l r o : MachineRep} {f : FName} (hb : f.base = binBase op)
    (hs : binSig f.types = some (l, r, o)) (a b : Code) :
    (∀ vars, a.typeOf vars = some l → b.typeOf vars = some r → (Code.call2 f a b).typeOf vars = some o) ∧
    ∃ g : Int → Int → Outcome EvalErr Int,
      (∀ dbg env, (Code.call2 f a b).run dbg env =
        (a.run dbg env).bind fun x => (b.run dbg env).bind fun y => g x y) ∧
      ∀ x y, l.Mem x → r.Mem y → ∃ e, g x y = Eval.result e ∧ BinOutcome op o x y e := by
  obtain ⟨body, h1, h2⟩ := binBody_exact op (binSig_mem hs)
  have hh : helper2 f = some ⟨l, r, o, body⟩ := by
    unfold helper2
    rw [hs, hb]
    simp only [h1, Option.map_some]
  refine ⟨fun vars ha hb => ?_, fun x y => (Outcome.ofPanicky (body x y)).bind Eval.result, ?_, ?_⟩
  · simp only [Code.typeOf, hh, ha, hb, and_self, if_true]
  · intro dbg env
    simp only [Code.run, hh]
    rfl
  · intro x y hx hy
    obtain ⟨e, e1, e2⟩ := h2 x y hx hy
    exact ⟨e, by show (Outcome.ofPanicky (body x y)).bind Eval.result = _; rw [e1]; rfl, e2⟩

theorem fallback2_good (op : BasicBinOp) (l r o : MachineRep) (f : FName) (a b : Code) :
    (∀ vars, a.typeOf vars = some l → b.typeOf vars = some r →
      (Code.fallback2 l r o f op a b).typeOf vars = some o) ∧
    ∃ g : Int → Int → Outcome EvalErr Int,
      (∀ dbg env, (Code.fallback2 l r o f op a b).run dbg env =
        (a.run dbg env).bind fun x => (b.run dbg env).bind fun y => g x y) ∧
      ∀ x y, l.Mem x → r.Mem y → ∃ e, g x y = Eval.result e ∧ BinOutcome op o x y e :=
  ⟨fun vars ha hb => by simp only [Code.typeOf, ha, hb, and_self, if_true],
    fun x y => Eval.result (evalFallback op o x y), fun _ _ => rfl,
    fun x y _ _ => ⟨_, rfl, .inl (C36_fallback op o x y)⟩⟩

/-- the code of one binary operation -/
theorem binCode_good (op : BasicBinOp) (l r o : MachineRep) (a b : Code) :
    ∃ c, binCode op l r o a b = .ok c ∧
    (Mixed64 l r o → ∀ vars, c.typeOf vars = none) ∧
    (¬ Mixed64 l r o →
    (∀ vars, a.typeOf vars = some l → b.typeOf vars = some r → c.typeOf vars = some o) ∧
    ∃ g : Int → Int → Outcome EvalErr Int,
      (∀ dbg env, c.run dbg env = (a.run dbg env).bind fun x => (b.run dbg env).bind fun y => g x y) ∧
      ∀ x y, l.Mem x → r.Mem y → ∃ e, g x y = Eval.result e ∧ BinOutcome op o x y e) := by
  have h := binGood_all l r o
  unfold binGood at h
  unfold binCode
  have hx := mixed64_iff l r o
  cases hc : classifyBinary l r o with
  | panic => rw [hc] at h; cases h
  | ok cls =>
    rw [hc] at h
    rw [bind_ok_ok]
    cases cls with
    | pure t =>
      simp only [Bool.and_eq_true, beq_iff_eq, Bool.not_eq_true'] at h
      exact ⟨_, rfl, (fun hm => (by rw [hx.2 hm] at h; exact nomatch h.2)), fun _ => call2_good op rfl h.1 a b⟩
    | homWide t o' =>
      simp only [Bool.and_eq_true, beq_iff_eq, Bool.not_eq_true'] at h
      exact ⟨_, rfl, (fun hm => (by rw [hx.2 hm] at h; exact nomatch h.2)), fun _ => call2_good op rfl h.1 a b⟩
    | hetWide l' r' o' =>
      simp only [beq_iff_eq] at h
      refine ⟨_, rfl, fun hm vars => ?_, fun hm => ?_⟩
      · rw [hx.2 hm, if_pos rfl] at h
        have : helper2 (binFName op (.hetWide l' r' o')) = none := by
          show (match binSig [l', r', o'] with | none => none | some (l, r, o) => _) = none
          rw [h]
        simp only [Code.typeOf, this]
      · rw [if_neg (fun h' => hm (hx.1 h'))] at h
        exact call2_good op rfl h a b
    | homLossy t o' =>
      simp only [Bool.and_eq_true, beq_iff_eq, Bool.not_eq_true'] at h
      obtain ⟨⟨⟨h1, h2⟩, h3⟩, h4⟩ := h
      refine ⟨_, rfl, (fun hm => (by rw [hx.2 hm] at h4; exact nomatch h4)), fun _ => ?_⟩
      have := fallback2_good op t t o' (binFName op (.homLossy t o')) a b
      rw [← h1, ← h2, ← h3]
      exact this
    | hetLossy l' r' o' =>
      simp only [Bool.and_eq_true, beq_iff_eq, Bool.not_eq_true'] at h
      obtain ⟨⟨⟨h1, h2⟩, h3⟩, h4⟩ := h
      refine ⟨_, rfl, (fun hm => (by rw [hx.2 hm] at h4; exact nomatch h4)), fun _ => ?_⟩
      subst h1 h2 h3
      exact fallback2_good op _ _ _ _ a b

/-! ### unary operations -/

/-- the part of `synthesize` that comes after the operand of a unary operation -/
def unCode (op : BasicUnaryOp) (i o : MachineRep) (a : Code) : Panicky Code :=
  (classifyUnary (some op) i o).bind fun cls =>
    match cls with
    | .pure _ | .nonLossy _ _ => .ok (.call (unFName op cls) a)
    | .lossy t0 t1 => .ok (.fallback t0 t1 (unFName op cls) op a)

/-- the outcome of one unary operation -/
def UnOutcome (dbg : Bool) (op : BasicUnaryOp) (i o : MachineRep) (x : Int) (g : Outcome EvalErr Int) : Prop :=
  (∃ e, g = Eval.result e ∧ ExactIn o (some (mathUn op x)) e) ∨
  (op = .negate ∧ i = o ∧ i.isSigned = true ∧ x = i.asBounds.min ∧ g = if dbg then .panic else .ok x) ∨
  (op = .absVal ∧ dbg = true ∧ i.isSigned = true ∧ x = i.asBounds.min ∧ g = .panic)

/-- a unary helper with its outcome -/
def Helper1Good (op : BasicUnaryOp) (i o : MachineRep) (f : FName) : Prop :=
  ∀ dbg, ∃ h, helper1 dbg f = some h ∧ h.i = i ∧ h.o = o ∧
    ∀ x, i.Mem x → UnOutcome dbg op i o x ((Outcome.ofPanicky (h.body x)).bind Eval.result)

theorem neg_min (dbg : Bool) (t : MachineRep) (hs : t.isSigned = true) :
    (Outcome.ofPanicky (negAsSigned dbg t t.asBounds.min)).bind Eval.result =
      if dbg then .panic else .ok t.asBounds.min := by
  have : ∀ t ∈ allReps, t.isSigned = true → ∀ dbg ∈ [true, false],
      (negAsSigned dbg t t.asBounds.min) = if dbg then .panic else .ok (.direct t.asBounds.min) := by
    decide +kernel
  rw [this t (mem_allReps t) hs dbg (by cases dbg <;> decide)]
  cases dbg <;> rfl

theorem abs_min (t o : MachineRep) (hs : t.isSigned = true) :
    absSigned true t t.asBounds.min = .panic ∧ absSignedUnsigned true t o t.asBounds.min = .panic := by
  have : ∀ t ∈ allReps, t.isSigned = true → native true t t.asBounds.min.natAbs = .panic := by
    decide +kernel
  have := this t (mem_allReps t) hs
  unfold absSigned absSignedUnsigned
  rw [this]
  exact ⟨rfl, rfl⟩

theorem ok_result {p : Panicky Eval} {e : Eval} (h : p = .ok e) :
    (Outcome.ofPanicky p).bind Eval.result = Eval.result e := by rw [h]; rfl

theorem neg_pure (t : MachineRep) : Helper1Good .negate t t ⟨.neg, [t]⟩ := by
  intro dbg
  have key : ∀ t ∈ allReps, (t.isSigned = true ∧ (t, t) ∈ negSameTable) ∨
      ((t, t) ∉ negSameTable ∧ (t, t) ∈ negUnsignedTable) := by decide +kernel
  rcases key t (mem_allReps t) with ⟨hs, h⟩ | ⟨h1, h2⟩
  · refine ⟨⟨t, t, negAsSigned dbg t⟩, ?_, rfl, rfl, fun x hx => ?_⟩
    · show (if (t, t) ∈ negSameTable then _ else _) = _
      rw [if_pos h]
    · by_cases hm : x = t.asBounds.min
      · refine .inr (.inl ⟨rfl, rfl, hs, hm, ?_⟩)
        rw [hm]
        exact neg_min dbg t hs
      · obtain ⟨e, e1, e2⟩ := C36_neg_same_partial dbg t t h x hx hm
        exact .inl ⟨e, ok_result e1, e2⟩
  · refine ⟨⟨t, t, fun x => .ok (negUnsigned x)⟩, ?_, rfl, rfl, fun x hx => ?_⟩
    · show (if (t, t) ∈ negSameTable then _ else if _ then _ else _) = _
      rw [if_neg h1, if_pos h2]
    · exact .inl ⟨_, rfl, C36_neg_unsigned t t h2 x hx⟩

theorem abs_pure (t : MachineRep) : Helper1Good .absVal t t ⟨.abs, [t]⟩ := by
  intro dbg
  have key : ∀ t ∈ allReps, (t.isSigned = true ∧ (t, t) ∈ absSameTable) ∨
      ((t, t) ∉ absSameTable ∧ (t, t) ∈ absUnsignedTable) := by decide +kernel
  rcases key t (mem_allReps t) with ⟨hs, h⟩ | ⟨h1, h2⟩
  · refine ⟨⟨t, t, absSigned dbg t⟩, ?_, rfl, rfl, fun x hx => ?_⟩
    · show (if (t, t) ∈ absSameTable then _ else _) = _
      rw [if_pos h]
    · by_cases hm : dbg = true ∧ x = t.asBounds.min
      · refine .inr (.inr ⟨rfl, hm.1, hs, hm.2, ?_⟩)
        rw [hm.1, hm.2]
        simp only [(abs_min t t hs).1]
        rfl
      · obtain ⟨e, e1, e2⟩ := C36_abs_same_partial dbg t t h x hx (fun hd hx' => hm ⟨hd, hx'⟩)
        exact .inl ⟨e, ok_result e1, e2⟩
  · refine ⟨⟨t, t, fun x => .ok (absUnsigned t x)⟩, ?_, rfl, rfl, fun x hx => ?_⟩
    · show (if (t, t) ∈ absSameTable then _ else if _ then _ else _) = _
      rw [if_neg h1, if_pos h2]
    · exact .inl ⟨_, rfl, C36_abs_unsigned t t h2 x hx⟩

theorem neg_mixed {i o : MachineRep} (hne : i ≠ o)
    (h : (i, o) ∈ negAsSignedTable ∨ (i, o) ∉ negAsSignedTable ∧ (i, o) ∈ negUnsignedTable ∨
      (i, o) ∉ negAsSignedTable ∧ (i, o) ∉ negUnsignedTable ∧ (i, o) ∈ negIntoUnsignedTable) :
    Helper1Good .negate i o ⟨.neg, [i, o]⟩ := by
  intro dbg
  have unf : helper1 dbg ⟨.neg, [i, o]⟩ = (if i = o then none
    else if (i, o) ∈ negAsSignedTable then some ⟨i, o, negAsSigned dbg o⟩
    else if (i, o) ∈ negUnsignedTable then some ⟨i, o, fun x => .ok (negUnsigned x)⟩
    else if (i, o) ∈ negIntoUnsignedTable then some ⟨i, o, negIntoUnsigned dbg i o⟩
    else none) := rfl
  rw [unf, if_neg hne]
  rcases h with h | ⟨h1, h2⟩ | ⟨h1, h2, h3⟩
  · rw [if_pos h]
    refine ⟨_, rfl, rfl, rfl, fun x hx => ?_⟩
    obtain ⟨e, e1, e2⟩ := C36_neg_widening dbg i o h x hx
    exact .inl ⟨e, ok_result e1, e2⟩
  · rw [if_neg h1, if_pos h2]
    refine ⟨_, rfl, rfl, rfl, fun x hx => ?_⟩
    exact .inl ⟨_, rfl, C36_neg_unsigned i o h2 x hx⟩
  · rw [if_neg h1, if_neg h2, if_pos h3]
    refine ⟨_, rfl, rfl, rfl, fun x hx => ?_⟩
    obtain ⟨e, e1, e2⟩ := C36_neg_into_unsigned dbg i o h3 x hx
    exact .inl ⟨e, ok_result e1, e2⟩

theorem abs_mixed {i o : MachineRep} (hne : i ≠ o)
    (h : (i, o) ∈ absAsSignedTable ∨
      (i, o) ∉ absAsSignedTable ∧ (i, o) ∈ absSignedUnsignedTable ∧ i.isSigned = true ∨
      (i, o) ∉ absAsSignedTable ∧ (i, o) ∉ absSignedUnsignedTable ∧ (i, o) ∈ absUnsignedTable) :
    Helper1Good .absVal i o ⟨.abs, [i, o]⟩ := by
  intro dbg
  have unf : helper1 dbg ⟨.abs, [i, o]⟩ = (if i = o then none
    else if (i, o) ∈ absAsSignedTable then some ⟨i, o, absAsSigned dbg o⟩
    else if (i, o) ∈ absSignedUnsignedTable then some ⟨i, o, absSignedUnsigned dbg i o⟩
    else if (i, o) ∈ absUnsignedTable then some ⟨i, o, fun x => .ok (absUnsigned o x)⟩
    else none) := rfl
  rw [unf, if_neg hne]
  rcases h with h | ⟨h1, h2, hs⟩ | ⟨h1, h2, h3⟩
  · rw [if_pos h]
    refine ⟨_, rfl, rfl, rfl, fun x hx => ?_⟩
    obtain ⟨e, e1, e2⟩ := C36_abs_widening dbg i o h x hx
    exact .inl ⟨e, ok_result e1, e2⟩
  · rw [if_neg h1, if_pos h2]
    refine ⟨_, rfl, rfl, rfl, fun x hx => ?_⟩
    by_cases hm : dbg = true ∧ x = i.asBounds.min
    · refine .inr (.inr ⟨rfl, hm.1, hs, hm.2, ?_⟩)
      rw [hm.1, hm.2]
      simp only [(abs_min i o hs).2]
      rfl
    · obtain ⟨e, e1, e2⟩ := C36_abs_into_unsigned_partial dbg i o h2 x hx (fun hd hx' => hm ⟨hd, hx'⟩)
      exact .inl ⟨e, ok_result e1, e2⟩
  · rw [if_neg h1, if_neg h2, if_pos h3]
    refine ⟨_, rfl, rfl, rfl, fun x hx => ?_⟩
    exact .inl ⟨_, rfl, C36_abs_unsigned i o h3 x hx⟩

/-- the operations with helpers or with a fallback that compiles -/
def unSupported (op : BasicUnaryOp) (i o : MachineRep) : Prop :=
  op = .absVal ∨ op = .negate ∧ ¬ (i.isSigned = false ∧ o.isSigned = true ∧ o.bitWidth.bits ≤ i.bitWidth.bits)

theorem call_good {op : BasicUnaryOp} {i o : MachineRep} {f : FName} (h : Helper1Good op i o f) (a : Code) :
    (∀ vars, a.typeOf vars = some i → (Code.call f a).typeOf vars = some o) ∧
    ∀ dbg, ∃ g : Int → Outcome EvalErr Int,
      (∀ env, (Code.call f a).run dbg env = (a.run dbg env).bind g) ∧
      ∀ x, i.Mem x → UnOutcome dbg op i o x (g x) := by
  constructor
  · intro vars ha
    obtain ⟨h1, e1, e2, e3, _⟩ := h true
    simp only [Code.typeOf, e1, ha, e2, e3, if_true]
  · intro dbg
    obtain ⟨h1, e1, _, _, e4⟩ := h dbg
    refine ⟨_, fun env => ?_, e4⟩
    simp only [Code.run, e1]
    rfl

theorem mathUn_big (op : BasicUnaryOp) (x : Int) : bigUnary op x = mathUn op x := by cases op <;> rfl

theorem fallback_good {op : BasicUnaryOp} (hop : op = .absVal ∨ op = .negate) (i o : MachineRep) (f : FName) (a : Code) :
    (∀ vars, a.typeOf vars = some i → (Code.fallback i o f op a).typeOf vars = some o) ∧
    ∀ dbg, ∃ g : Int → Outcome EvalErr Int,
      (∀ env, (Code.fallback i o f op a).run dbg env = (a.run dbg env).bind g) ∧
      ∀ x, i.Mem x → UnOutcome dbg op i o x (g x) := by
  constructor
  · intro vars ha
    rcases hop with rfl | rfl <;> simp only [Code.typeOf, ha, if_true]
  · intro dbg
    refine ⟨fun x => Eval.result (evalUnaryFallback (bigUnary op) o x), fun env => rfl, fun x _ => .inl ⟨_, rfl, ?_⟩⟩
    rw [← mathUn_big]
    exact C36_unary_fallback _ o x

set_option synthInstance.maxSize 2000 in
set_option synthInstance.maxHeartbeats 200000 in
/-- the class of a negation, and its helper -/
theorem neg_class (i o : MachineRep) :
    (i = o ∧ classifyUnary (some .negate) i o = .ok (.pure i)) ∨
    (i ≠ o ∧ classifyUnary (some .negate) i o = .ok (.nonLossy i o) ∧
      ((i.isSigned = false ∧ o.isSigned = true ∧ o.bitWidth.bits ≤ i.bitWidth.bits ∧
          (i, o) ∉ negAsSignedTable ∧ (i, o) ∉ negUnsignedTable ∧ (i, o) ∉ negIntoUnsignedTable) ∨
        ¬ (i.isSigned = false ∧ o.isSigned = true ∧ o.bitWidth.bits ≤ i.bitWidth.bits) ∧
        ((i, o) ∈ negAsSignedTable ∨ (i, o) ∉ negAsSignedTable ∧ (i, o) ∈ negUnsignedTable ∨
        (i, o) ∉ negAsSignedTable ∧ (i, o) ∉ negUnsignedTable ∧ (i, o) ∈ negIntoUnsignedTable))) ∨
    (i ≠ o ∧ classifyUnary (some .negate) i o = .ok (.lossy i o) ∧
      ¬ (i.isSigned = false ∧ o.isSigned = true ∧ o.bitWidth.bits ≤ i.bitWidth.bits)) := by
  revert o
  have : ∀ i ∈ allReps, ∀ o ∈ allReps,
    (i = o ∧ classifyUnary (some .negate) i o = .ok (.pure i)) ∨
    (i ≠ o ∧ classifyUnary (some .negate) i o = .ok (.nonLossy i o) ∧
      ((i.isSigned = false ∧ o.isSigned = true ∧ o.bitWidth.bits ≤ i.bitWidth.bits ∧
          (i, o) ∉ negAsSignedTable ∧ (i, o) ∉ negUnsignedTable ∧ (i, o) ∉ negIntoUnsignedTable) ∨
        ¬ (i.isSigned = false ∧ o.isSigned = true ∧ o.bitWidth.bits ≤ i.bitWidth.bits) ∧
        ((i, o) ∈ negAsSignedTable ∨ (i, o) ∉ negAsSignedTable ∧ (i, o) ∈ negUnsignedTable ∨
        (i, o) ∉ negAsSignedTable ∧ (i, o) ∉ negUnsignedTable ∧ (i, o) ∈ negIntoUnsignedTable))) ∨
    (i ≠ o ∧ classifyUnary (some .negate) i o = .ok (.lossy i o) ∧
      ¬ (i.isSigned = false ∧ o.isSigned = true ∧ o.bitWidth.bits ≤ i.bitWidth.bits)) := by decide +kernel
  exact fun o => this i (mem_allReps i) o (mem_allReps o)

/-- the class of an absolute value, and its helper -/
theorem abs_class (i o : MachineRep) :
    (i = o ∧ classifyUnary (some .absVal) i o = .ok (.pure i)) ∨
    (i ≠ o ∧ classifyUnary (some .absVal) i o = .ok (.nonLossy i o) ∧
      ((i, o) ∈ absAsSignedTable ∨
      (i, o) ∉ absAsSignedTable ∧ (i, o) ∈ absSignedUnsignedTable ∧ i.isSigned = true ∨
      (i, o) ∉ absAsSignedTable ∧ (i, o) ∉ absSignedUnsignedTable ∧ (i, o) ∈ absUnsignedTable)) ∨
    (i ≠ o ∧ classifyUnary (some .absVal) i o = .ok (.lossy i o)) := by
  revert o
  have : ∀ i ∈ allReps, ∀ o ∈ allReps,
    (i = o ∧ classifyUnary (some .absVal) i o = .ok (.pure i)) ∨
    (i ≠ o ∧ classifyUnary (some .absVal) i o = .ok (.nonLossy i o) ∧
      ((i, o) ∈ absAsSignedTable ∨
      (i, o) ∉ absAsSignedTable ∧ (i, o) ∈ absSignedUnsignedTable ∧ i.isSigned = true ∨
      (i, o) ∉ absAsSignedTable ∧ (i, o) ∉ absSignedUnsignedTable ∧ (i, o) ∈ absUnsignedTable)) ∨
    (i ≠ o ∧ classifyUnary (some .absVal) i o = .ok (.lossy i o)) := by decide +kernel
  exact fun o => this i (mem_allReps i) o (mem_allReps o)

/-- the class of a successor or predecessor exists -/
theorem step_class (op : BasicUnaryOp) (hop : op = .intPred ∨ op = .intSucc) (i o : MachineRep) :
    ∃ cls, classifyUnary (some op) i o = .ok cls := by
  unfold classifyUnary
  split
  · exact ⟨_, rfl⟩
  · obtain ⟨r, h, _⟩ := C38_encompasses o i
    rcases hop with rfl | rfl <;> (simp only [h]; exact ⟨_, rfl⟩)

/-- the code of one unary operation -/
theorem unCode_good (op : BasicUnaryOp) (i o : MachineRep) (a : Code) :
    ∃ c, unCode op i o a = .ok c ∧
    (¬ unSupported op i o → ∀ vars, c.typeOf vars = none) ∧
    (unSupported op i o → (∀ vars, a.typeOf vars = some i → c.typeOf vars = some o) ∧
      ∀ dbg, ∃ g : Int → Outcome EvalErr Int,
        (∀ env, c.run dbg env = (a.run dbg env).bind g) ∧
        ∀ x, i.Mem x → UnOutcome dbg op i o x (g x)) := by
  cases op with
  | absVal =>
    have hs : unSupported .absVal i o := .inl rfl
    unfold unCode
    rcases abs_class i o with ⟨rfl, h⟩ | ⟨hne, h, ht⟩ | ⟨hne, h⟩
    · rw [h]
      exact ⟨_, rfl, fun hn => absurd hs hn, fun _ => call_good (abs_pure i) a⟩
    · rw [h]
      exact ⟨_, rfl, fun hn => absurd hs hn, fun _ => call_good (abs_mixed hne ht) a⟩
    · rw [h]
      exact ⟨_, rfl, fun hn => absurd hs hn, fun _ => fallback_good (.inl rfl) _ _ _ a⟩
  | negate =>
    unfold unCode
    rcases neg_class i o with ⟨rfl, h⟩ | ⟨hne, h, ⟨k1, k2, k3, k4, k5, k6⟩ | ⟨hs, ht⟩⟩ | ⟨hne, h, hs⟩
    · rw [h]
      refine ⟨_, rfl, fun hn => ?_, fun _ => call_good (neg_pure i) a⟩
      refine absurd (.inr ⟨rfl, ?_⟩) hn
      rintro ⟨h1, h2, _⟩
      rw [h1] at h2
      cases h2
    · rw [h]
      refine ⟨_, rfl, fun _ vars => ?_, fun hs => ?_⟩
      · have : helper1 true ⟨.neg, [i, o]⟩ = none := by
          show (if i = o then none
            else if (i, o) ∈ negAsSignedTable then some _
            else if (i, o) ∈ negUnsignedTable then some _
            else if (i, o) ∈ negIntoUnsignedTable then some _
            else none) = none
          rw [if_neg hne, if_neg k4, if_neg k5, if_neg k6]
        show Code.typeOf vars (.call ⟨.neg, [i, o]⟩ a) = none
        simp only [Code.typeOf, this]
      · rcases hs with hs | ⟨_, hs⟩
        · cases hs
        · exact absurd ⟨k1, k2, k3⟩ hs
    · rw [h]
      exact ⟨_, rfl, fun hn => absurd (.inr ⟨rfl, hs⟩) hn, fun _ => call_good (neg_mixed hne ht) a⟩
    · rw [h]
      exact ⟨_, rfl, fun hn => absurd (.inr ⟨rfl, hs⟩) hn, fun _ => fallback_good (.inr rfl) _ _ _ a⟩
  | intSucc =>
    obtain ⟨cls, h⟩ := step_class .intSucc (.inr rfl) i o
    unfold unCode
    rw [h, bind_ok_ok]
    have hs : ¬ unSupported .intSucc i o := by rintro (h | ⟨h, _⟩) <;> cases h
    cases cls with
    | pure t => exact ⟨_, rfl, fun _ vars => rfl, fun h => absurd h hs⟩
    | nonLossy t t' => exact ⟨_, rfl, fun _ vars => rfl, fun h => absurd h hs⟩
    | lossy t t' => exact ⟨_, rfl, fun _ vars => rfl, fun h => absurd h hs⟩
  | intPred =>
    obtain ⟨cls, h⟩ := step_class .intPred (.inl rfl) i o
    unfold unCode
    rw [h, bind_ok_ok]
    have hs : ¬ unSupported .intPred i o := by rintro (h | ⟨h, _⟩) <;> cases h
    cases cls with
    | pure t => exact ⟨_, rfl, fun _ vars => rfl, fun h => absurd h hs⟩
    | nonLossy t t' => exact ⟨_, rfl, fun _ vars => rfl, fun h => absurd h hs⟩
    | lossy t t' => exact ⟨_, rfl, fun _ vars => rfl, fun h => absurd h hs⟩

/-! ### casts -/

/-- the part of `synthesize` that comes after the operand of a cast -/
def castCode (bitwise : Bool) (i o : MachineRep) (a : Code) : Panicky Code :=
  if bitwise then .ok (.asCast a o)
  else
    (classifyUnary none i o).bind fun cls =>
      match cls with
      | .pure _ => .ok a
      | .nonLossy _ _ | .lossy _ _ => (castFName cls).bind fun f => .ok (.call f a)

theorem cast_class (i o : MachineRep) :
    (i = o ∧ classifyUnary none i o = .ok (.pure i)) ∨
    (i ≠ o ∧ (classifyUnary none i o = .ok (.nonLossy i o) ∨ classifyUnary none i o = .ok (.lossy i o)) ∧
      ((i, o) ∈ directCastTable ∨ (i, o) ∉ directCastTable ∧ (i, o) ∈ attemptCastTable)) := by
  revert o
  have : ∀ i ∈ allReps, ∀ o ∈ allReps,
    (i = o ∧ classifyUnary none i o = .ok (.pure i)) ∨
    (i ≠ o ∧ (classifyUnary none i o = .ok (.nonLossy i o) ∨ classifyUnary none i o = .ok (.lossy i o)) ∧
      ((i, o) ∈ directCastTable ∨ (i, o) ∉ directCastTable ∧ (i, o) ∈ attemptCastTable)) := by decide +kernel
  exact fun o => this i (mem_allReps i) o (mem_allReps o)

theorem cast_helper {i o : MachineRep}
    (h : (i, o) ∈ directCastTable ∨ (i, o) ∉ directCastTable ∧ (i, o) ∈ attemptCastTable) (dbg : Bool) :
    ∃ h, helper1 dbg ⟨.cast, [i, o]⟩ = some h ∧ h.i = i ∧ h.o = o ∧
      ∀ x, i.Mem x → ∃ e, h.body x = .ok e ∧ ExactIn o (some x) e := by
  have unf : helper1 dbg ⟨.cast, [i, o]⟩ = (
    if (i, o) ∈ directCastTable then some ⟨i, o, fun x => .ok (directCast o x)⟩
    else if (i, o) ∈ attemptCastTable then some ⟨i, o, fun x => .ok (attemptCast o x)⟩
    else none) := rfl
  rw [unf]
  rcases h with h | ⟨h1, h2⟩
  · rw [if_pos h]
    exact ⟨_, rfl, rfl, rfl, fun x hx => ⟨_, rfl, C36_direct_cast i o h x hx⟩⟩
  · rw [if_neg h1, if_pos h2]
    exact ⟨_, rfl, rfl, rfl, fun x _ => ⟨_, rfl, C36_attempt_cast o x⟩⟩

/-- the code of one arithmetic cast -/
theorem castCode_good (i o : MachineRep) (a : Code) :
    ∃ c, castCode false i o a = .ok c ∧
    (∀ vars, a.typeOf vars = some i → c.typeOf vars = some o) ∧
    ∀ dbg, ∃ g : Int → Outcome EvalErr Int,
      (∀ env, c.run dbg env = (a.run dbg env).bind g) ∧
      ∀ x, i.Mem x → ∃ e, g x = Eval.result e ∧ ExactIn o (some x) e := by
  have call : ((i, o) ∈ directCastTable ∨ (i, o) ∉ directCastTable ∧ (i, o) ∈ attemptCastTable) →
      (∀ vars, a.typeOf vars = some i → (Code.call ⟨.cast, [i, o]⟩ a).typeOf vars = some o) ∧
      ∀ dbg, ∃ g : Int → Outcome EvalErr Int,
        (∀ env, (Code.call ⟨.cast, [i, o]⟩ a).run dbg env = (a.run dbg env).bind g) ∧
        ∀ x, i.Mem x → ∃ e, g x = Eval.result e ∧ ExactIn o (some x) e := by
    intro ht
    constructor
    · intro vars ha
      obtain ⟨h, e1, e2, e3, _⟩ := cast_helper ht true
      simp only [Code.typeOf, e1, ha, e2, e3, if_true]
    · intro dbg
      obtain ⟨h, e1, _, _, e4⟩ := cast_helper ht dbg
      refine ⟨fun x => (Outcome.ofPanicky (h.body x)).bind Eval.result, fun env => ?_, fun x hx => ?_⟩
      · simp only [Code.run, e1]
        rfl
      · obtain ⟨e, k1, k2⟩ := e4 x hx
        exact ⟨e, ok_result k1, k2⟩
  unfold castCode
  rw [if_neg (by decide)]
  rcases cast_class i o with ⟨rfl, h⟩ | ⟨hne, h | h, ht⟩
  · rw [h]
    refine ⟨a, rfl, fun _ h => h, fun dbg => ⟨.ok, fun env => ?_, fun x hx => ⟨.direct x, rfl, rfl, hx⟩⟩⟩
    cases a.run dbg env <;> rfl
  · rw [h]
    exact ⟨_, rfl, call ht⟩
  · rw [h]
    exact ⟨_, rfl, call ht⟩

end Codegen
end Num
end Doodle
