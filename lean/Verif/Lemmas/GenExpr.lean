import Verif.Spec.Gen
import Verif.Props.Shadow

/-! Expressions over values with and without the marks of the interpreter. -/

namespace Doodle
namespace Gen

variable {δ δ' : Type}

/-! ### values -/

theorem eraseList_eq : ∀ vs, eraseList vs = vs.map erase
  | [] => rfl
  | v :: vs => by rw [eraseList, List.map_cons, eraseList_eq vs]

theorem eraseFields_eq : ∀ fs : List (String × Value), eraseFields fs = fs.map fun f => (f.1, erase f.2)
  | [] => rfl
  | (l, v) :: fs => by rw [eraseFields, List.map_cons, eraseFields_eq fs]

theorem cleanList_iff : ∀ vs, CleanList vs ↔ ∀ v ∈ vs, Clean v
  | [] => by simp [CleanList]
  | v :: vs => by simp [CleanList, cleanList_iff vs]

theorem cleanFields_iff : ∀ fs : List (String × Value), CleanFields fs ↔ ∀ f ∈ fs, Clean f.2
  | [] => by simp [CleanFields]
  | (l, v) :: fs => by simp [CleanFields, cleanFields_iff fs]

/-- a value of the interpreter and the value generated code has for it -/
def ER (v w : Value) : Prop := Clean v ∧ w = erase v

theorem clean_coerce : ∀ {v : Value}, Clean v → Clean v.coerceMapped
  | .mapped _ v, h => by simp only [Clean] at h; simp only [Value.coerceMapped]; exact clean_coerce h
  | .branch _ v, h => by simp only [Clean] at h; simp only [Value.coerceMapped]; exact clean_coerce h
  | .permitOk _, h => by simp only [Clean] at h
  | .permitErr _, h => by simp only [Clean] at h
  | .permitErrNone, h => by simp only [Clean] at h
  | .bool _, h => h
  | .num _ _, h => h
  | .char _, h => h
  | .numeric _, h => h
  | .view _, h => h
  | .phantom, h => h
  | .enumFromTo _ _, h => h
  | .optNone, h => h
  | .optSome _, h => h
  | .tuple _, h => h
  | .record _, h => h
  | .variant _ _, h => h
  | .seq _, h => h

theorem erase_coerceMapped : ∀ v : Value, erase v.coerceMapped = erase v
  | .mapped _ v => by simp only [Value.coerceMapped, erase]; exact erase_coerceMapped v
  | .branch _ v => by simp only [Value.coerceMapped, erase]; exact erase_coerceMapped v
  | .permitOk v => by simp only [Value.coerceMapped, erase]; exact erase_coerceMapped v
  | .permitErr _ => rfl
  | .permitErrNone => rfl
  | .bool _ => rfl
  | .num _ _ => rfl
  | .char _ => rfl
  | .numeric _ => rfl
  | .view _ => rfl
  | .phantom => rfl
  | .enumFromTo _ _ => rfl
  | .optNone => rfl
  | .optSome _ => rfl
  | .tuple _ => rfl
  | .record _ => rfl
  | .variant _ _ => rfl
  | .seq _ => rfl

theorem coerceMapped_erase : ∀ v : Value, (erase v).coerceMapped = erase v
  | .mapped _ v => by simp only [erase]; exact coerceMapped_erase v
  | .branch _ v => by simp only [erase]; exact coerceMapped_erase v
  | .permitOk v => by simp only [erase]; exact coerceMapped_erase v
  | .permitErr v => by simp only [erase]; exact coerceMapped_erase v
  | .permitErrNone => rfl
  | .bool _ => rfl
  | .num _ _ => rfl
  | .char _ => rfl
  | .numeric _ => rfl
  | .view _ => rfl
  | .phantom => rfl
  | .enumFromTo _ _ => rfl
  | .optNone => rfl
  | .optSome _ => rfl
  | .tuple _ => rfl
  | .record _ => rfl
  | .variant _ _ => rfl
  | .seq _ => rfl

theorem coerceNominal_erase : ∀ v : Value, (erase v).coerceNominal = erase v
  | .mapped _ v => by simp only [erase]; exact coerceNominal_erase v
  | .branch _ v => by simp only [erase]; exact coerceNominal_erase v
  | .permitOk v => by simp only [erase]; exact coerceNominal_erase v
  | .permitErr v => by simp only [erase]; exact coerceNominal_erase v
  | .permitErrNone => rfl
  | .bool _ => rfl
  | .num _ _ => rfl
  | .char _ => rfl
  | .numeric _ => rfl
  | .view _ => rfl
  | .phantom => rfl
  | .enumFromTo _ _ => rfl
  | .optNone => rfl
  | .optSome _ => rfl
  | .tuple _ => rfl
  | .record _ => rfl
  | .variant _ _ => rfl
  | .seq _ => rfl

theorem coerceNominal_clean : ∀ {v : Value}, Clean v → v.coerceNominal = v.coerceMapped
  | .mapped _ v, h => by
    simp only [Clean] at h; simp only [Value.coerceMapped, Value.coerceNominal]; exact coerceNominal_clean h
  | .branch _ v, h => by
    simp only [Clean] at h; simp only [Value.coerceMapped, Value.coerceNominal]; exact coerceNominal_clean h
  | .permitOk _, h => by simp only [Clean] at h
  | .permitErr _, h => by simp only [Clean] at h
  | .permitErrNone, h => by simp only [Clean] at h
  | .bool _, _ => rfl
  | .num _ _, _ => rfl
  | .char _, _ => rfl
  | .numeric _, _ => rfl
  | .view _, _ => rfl
  | .phantom, _ => rfl
  | .enumFromTo _ _, _ => rfl
  | .optNone, _ => rfl
  | .optSome _, _ => rfl
  | .tuple _, _ => rfl
  | .record _, _ => rfl
  | .variant _ _, _ => rfl
  | .seq _, _ => rfl

theorem toStrict_erase : ∀ v : Value, (erase v).toStrict = v.toStrict
  | .mapped _ v => by simp only [erase, Value.toStrict]; exact toStrict_erase v
  | .branch _ v => by simp only [erase, Value.toStrict]; exact toStrict_erase v
  | .permitOk v => by simp only [erase, Value.toStrict]; exact toStrict_erase v
  | .permitErr v => by simp only [erase, Value.toStrict]; exact toStrict_erase v
  | .permitErrNone => rfl
  | .bool _ => rfl
  | .num _ _ => rfl
  | .char _ => rfl
  | .numeric _ => rfl
  | .view _ => rfl
  | .phantom => rfl
  | .enumFromTo _ _ => rfl
  | .optNone => rfl
  | .optSome _ => rfl
  | .tuple _ => rfl
  | .record _ => rfl
  | .variant _ _ => rfl
  | .seq _ => rfl

theorem ER.coerce {v w : Value} (h : ER v w) : ER v.coerceMapped w.coerceMapped := by
  obtain ⟨h1, rfl⟩ := h
  exact ⟨clean_coerce h1, by rw [coerceMapped_erase, erase_coerceMapped]⟩

/-! ### sequences -/

theorem iter_erase (s : SeqKind Value) : (eraseSeq s).iter = s.iter.map erase := by
  cases s <;> simp [eraseSeq, SeqKind.iter, eraseList_eq]

theorem intoVec_erase (s : SeqKind Value) : (eraseSeq s).intoVec = s.intoVec.map erase := by
  cases s <;> simp [eraseSeq, SeqKind.intoVec, eraseList_eq]

theorem len_erase (s : SeqKind Value) : (eraseSeq s).len = s.len := by
  cases s <;> simp [eraseSeq, SeqKind.len, eraseList_eq]

theorem isEmpty_erase (s : SeqKind Value) : (eraseSeq s).isEmpty = s.isEmpty := by
  cases s <;> simp [eraseSeq, SeqKind.isEmpty, eraseList_eq]

theorem cleanSeq_iter {s : SeqKind Value} (h : CleanSeq s) : ∀ v ∈ s.iter, Clean v := by
  cases s with
  | strict vs => exact (cleanList_iff vs).mp h
  | dup n v => intro x hx; simp only [SeqKind.iter, List.mem_replicate] at hx; rw [hx.2]; exact h

/-! ### computations that may panic -/

/-- where the first computation gives a value, so does the second, and the two are related -/
def PLe {α β : Type} (r : α → β → Prop) (x : Panicky α) (y : Panicky β) : Prop :=
  ∀ a, x = .ok a → ∃ b, y = .ok b ∧ r a b

theorem PLe.panic {α β : Type} {r : α → β → Prop} {y : Panicky β} : PLe r .panic y := fun _ h => by cases h

theorem PLe.ok {α β : Type} {r : α → β → Prop} {a : α} {b : β} (h : r a b) : PLe r (.ok a) (.ok b) :=
  fun _ h' => by cases h'; exact ⟨b, rfl, h⟩

theorem PLe.same {α : Type} {x : Panicky α} : PLe (fun a b => b = a) x x := fun a h => ⟨a, h, rfl⟩

theorem PLe.bind {α β γ ε : Type} {r : α → β → Prop} {q : γ → ε → Prop} {x : Panicky α} {y : Panicky β}
    {f : α → Panicky γ} {g : β → Panicky ε} (h : PLe r x y) (hf : ∀ a b, r a b → PLe q (f a) (g b)) :
    PLe q (x >>= f) (y >>= g) := by
  intro c hc
  obtain ⟨a, h1, h2⟩ := Panicky.bind_eq_ok.mp hc
  obtain ⟨b, h3, h4⟩ := h a h1
  rw [h3]
  exact hf a b h4 c h2

theorem PLe.ite {α β : Type} {r : α → β → Prop} {c : Prop} [Decidable c] {x x' : Panicky α} {y y' : Panicky β}
    (h : c → PLe r x y) (h' : ¬ c → PLe r x' y') : PLe r (if c then x else x') (if c then y else y') := by
  split
  · next hc => exact h hc
  · next hc => exact h' hc

/-- lists of related values -/
def ERL (vs ws : List Value) : Prop := (∀ v ∈ vs, Clean v) ∧ ws = vs.map erase

theorem ERL.nil : ERL [] [] := ⟨(fun _ h => by cases h), rfl⟩

theorem ERL.cons {v w : Value} {vs ws : List Value} (h : ER v w) (hs : ERL vs ws) : ERL (v :: vs) (w :: ws) := by
  obtain ⟨h1, rfl⟩ := h
  obtain ⟨h2, rfl⟩ := hs
  exact ⟨by intro x hx; cases hx with | head => exact h1 | tail _ hx => exact h2 x hx, rfl⟩

theorem ERL.append {vs ws vs' ws' : List Value} (h : ERL vs ws) (h' : ERL vs' ws') : ERL (vs ++ vs') (ws ++ ws') := by
  obtain ⟨h1, rfl⟩ := h
  obtain ⟨h2, rfl⟩ := h'
  exact ⟨by intro x hx; rcases List.mem_append.mp hx with hx | hx; exact h1 x hx; exact h2 x hx, by simp⟩

theorem ERL.snoc {v w : Value} {vs ws : List Value} (hs : ERL vs ws) (h : ER v w) : ERL (vs ++ [v]) (ws ++ [w]) :=
  hs.append (.cons h .nil)

theorem ERL.tuple {vs ws : List Value} (h : ERL vs ws) : ER (.tuple vs) (.tuple ws) := by
  obtain ⟨h1, rfl⟩ := h
  exact ⟨(cleanList_iff _).mpr h1, by rw [erase, eraseList_eq]⟩

theorem ERL.seq {vs ws : List Value} (h : ERL vs ws) : ER (.seq (.strict vs)) (.seq (.strict ws)) := by
  obtain ⟨h1, rfl⟩ := h
  exact ⟨(cleanList_iff _).mpr h1, by rw [erase, eraseSeq, eraseList_eq]⟩

theorem ERL.of_seq {s : SeqKind Value} {w : Value} (h : ER (.seq s) w) :
    ∃ s', w = .seq s' ∧ s' = eraseSeq s ∧ ERL s.iter s'.iter :=
  ⟨eraseSeq s, by rw [h.2, erase], rfl, cleanSeq_iter h.1, iter_erase s⟩

theorem ERL.get {vs ws : List Value} (h : ERL vs ws) (i : Nat) :
    PLe ER (Panicky.unwrap vs[i]?) (Panicky.unwrap ws[i]?) := by
  obtain ⟨h1, rfl⟩ := h
  cases h2 : vs[i]? with
  | none => exact .panic
  | some v => rw [List.getElem?_map, h2]; exact .ok ⟨h1 v (List.mem_of_getElem? h2), rfl⟩

theorem er_leaf {v : Value} (h1 : Clean v) (h2 : erase v = v) : ER v v := ⟨h1, h2.symm⟩

theorem er_ofUsize (n : Nat) : ER (.ofUsize n) (.ofUsize n) := ⟨trivial, rfl⟩

theorem er_ranges (ns : List Nat) : ERL (ns.map Value.ofUsize) (ns.map Value.ofUsize) :=
  ⟨by intro x hx; obtain ⟨n, _, rfl⟩ := List.mem_map.mp hx; exact trivial,
   by rw [List.map_map]; rfl⟩

theorem mkNum_er (k : UKind) (n : Nat) : PLe ER (Value.mkNum k n) (Value.mkNum k n) := by
  unfold Value.mkNum
  split
  · exact .ok ⟨trivial, rfl⟩
  · exact .panic

theorem index_er {s : SeqKind Value} (h : CleanSeq s) (i : Nat) : PLe ER (s.index i) ((eraseSeq s).index i) := by
  unfold SeqKind.index
  cases s with
  | strict vs =>
    have := ERL.get (vs := vs) (ws := vs.map erase) ⟨(cleanList_iff _).mp h, rfl⟩ i
    simp only [SeqKind.get, eraseSeq, eraseList_eq]
    exact this
  | dup n v =>
    simp only [SeqKind.get, eraseSeq]
    split
    · exact .ok ⟨h, rfl⟩
    · exact .panic

/-! ### the operations of expressions -/

section
variable {u : Value} (hu : Clean u)
include hu

theorem tupleProj_er (i : Nat) : PLe ER (u.tupleProj i) ((erase u).tupleProj i) := by
  cases u with
  | tuple vs =>
    simp only [Value.tupleProj, erase, eraseList_eq]
    exact ERL.get ⟨(cleanList_iff _).mp hu, rfl⟩ i
  | permitErrNone => cases hu
  | permitErr _ => cases hu
  | _ => exact .panic

theorem recordProj_er (l : String) : PLe ER (u.recordProj l) ((erase u).recordProj l) := by
  cases u with
  | record fs =>
    simp only [Value.recordProj, erase, eraseFields_eq, List.find?_map]
    have h1 : ((fun f : String × Value => l == f.1) ∘ fun f : String × Value => (f.1, erase f.2))
      = fun f : String × Value => l == f.1 := rfl
    rw [h1]
    cases h2 : fs.find? fun f => l == f.1 with
    | none => exact .panic
    | some f => exact .ok ⟨(cleanFields_iff fs).mp hu f (List.mem_of_find?_eq_some h2), rfl⟩
  | permitErrNone => cases hu
  | permitErr _ => cases hu
  | _ => exact .panic

omit hu in
theorem unwrapUsize_er : PLe (fun a b => b = a) u.unwrapUsize (erase u).unwrapUsize := by
  cases u <;> first | exact .same | exact .panic

omit hu in
theorem unwrapBool_er : PLe (fun a b => b = a) u.unwrapBool (erase u).unwrapBool := by
  cases u <;> first | exact .same | exact .panic

omit hu in
theorem getAsU8_er : PLe (fun a b => b = a) u.getAsU8 (erase u).getAsU8 := by
  cases u <;> first | exact .same | exact .panic

omit hu in
theorem castTo_er (w : Num.BitWidth) : PLe ER (Expr.castTo w u) (Expr.castTo w (erase u)) := by
  cases u with
  | num k n => exact mkNum_er _ _
  | _ => exact .panic

omit hu in
theorem castChar_er : PLe ER (Expr.castChar u) (Expr.castChar (erase u)) := by
  cases u with
  | num k n =>
    simp only [Expr.castChar, erase]
    split
    · exact .ok ⟨trivial, rfl⟩
    · exact .panic
  | _ => exact .panic

omit hu in
theorem u8List_erase : ∀ {vs : List Value} {bs}, Expr.u8List vs = some bs → Expr.u8List (vs.map erase) = some bs
  | [], bs, h => h
  | .num (.fixed .b8) n :: vs, bs, h => by
    simp only [Expr.u8List, Option.map_eq_some_iff] at h
    obtain ⟨a, h1, h2⟩ := h
    simp only [List.map_cons, erase, Expr.u8List, u8List_erase h1, Option.map_some, h2]
  | .num (.fixed .b16) _ :: _, _, h => by simp [Expr.u8List] at h
  | .num (.fixed .b32) _ :: _, _, h => by simp [Expr.u8List] at h
  | .num (.fixed .b64) _ :: _, _, h => by simp [Expr.u8List] at h
  | .num .usize _ :: _, _, h => by simp [Expr.u8List] at h
  | .bool _ :: _, _, h => by simp [Expr.u8List] at h
  | .char _ :: _, _, h => by simp [Expr.u8List] at h
  | .numeric _ :: _, _, h => by simp [Expr.u8List] at h
  | .view _ :: _, _, h => by simp [Expr.u8List] at h
  | .phantom :: _, _, h => by simp [Expr.u8List] at h
  | .enumFromTo _ _ :: _, _, h => by simp [Expr.u8List] at h
  | .optNone :: _, _, h => by simp [Expr.u8List] at h
  | .optSome _ :: _, _, h => by simp [Expr.u8List] at h
  | .tuple _ :: _, _, h => by simp [Expr.u8List] at h
  | .record _ :: _, _, h => by simp [Expr.u8List] at h
  | .variant _ _ :: _, _, h => by simp [Expr.u8List] at h
  | .seq _ :: _, _, h => by simp [Expr.u8List] at h
  | .mapped _ _ :: _, _, h => by simp [Expr.u8List] at h
  | .branch _ _ :: _, _, h => by simp [Expr.u8List] at h
  | .permitOk _ :: _, _, h => by simp [Expr.u8List] at h
  | .permitErr _ :: _, _, h => by simp [Expr.u8List] at h
  | .permitErrNone :: _, _, h => by simp [Expr.u8List] at h

omit hu in
theorem wordOf_er (w : Num.BitWidth) (be : Bool) : PLe ER (Expr.wordOf w be u) (Expr.wordOf w be (erase u)) := by
  cases u with
  | tuple vs =>
    simp only [Expr.wordOf, erase, eraseList_eq]
    cases h : Expr.u8List vs with
    | none => exact .panic
    | some bs =>
      simp only [u8List_erase h]
      split
      · exact mkNum_er _ _
      · exact .panic
  | _ => exact .panic

omit hu in
theorem lengthOf_er : PLe ER (Expr.lengthOf u) (Expr.lengthOf (erase u)) := by
  cases u with
  | seq s => simp only [Expr.lengthOf, erase, Value.getSequence, Value.ValueSeq.len, len_erase]; exact mkNum_er _ _
  | enumFromTo a b => exact mkNum_er _ _
  | _ => exact .panic

theorem indexOf_er (i : Nat) : PLe ER (Expr.indexOf u i) (Expr.indexOf (erase u) i) := by
  cases u with
  | seq s => exact index_er hu i
  | enumFromTo a b =>
    simp only [Expr.indexOf, erase, Value.getSequence]
    split
    · exact .ok (er_ofUsize _)
    · exact .panic
  | _ => exact .panic

theorem subSeqOf_er (i n : Nat) : PLe ER (Expr.subSeqOf u i n) (Expr.subSeqOf (erase u) i n) := by
  cases u with
  | seq s =>
    simp only [Expr.subSeqOf, erase, Value.getSequence]
    have h1 : PLe (fun s s' => CleanSeq s ∧ s' = eraseSeq s) (s.subSeq i n) ((eraseSeq s).subSeq i n) := by
      cases s with
      | strict vs =>
        simp only [SeqKind.subSeq, eraseSeq, eraseList_eq, List.length_map, List.length_drop]
        split
        · split
          · refine .ok ⟨?_, ?_⟩
            · refine (cleanList_iff _).mpr fun v hv => (cleanList_iff _).mp hu v ?_
              exact List.mem_of_mem_drop (List.mem_of_mem_take hv)
            · rw [eraseSeq, eraseList_eq, List.map_take, List.map_drop]
          · exact .panic
        · exact .panic
      | dup m v =>
        simp only [SeqKind.subSeq, eraseSeq]
        split
        · exact .ok ⟨hu, by rw [eraseSeq]⟩
        · exact .panic
    exact h1.bind fun a b h => .ok ⟨h.1, by rw [h.2, erase]⟩
  | enumFromTo a b =>
    simp only [Expr.subSeqOf, erase, Value.getSequence]
    refine PLe.bind .same fun _ _ h => ?_
    subst h
    refine PLe.bind .same fun _ _ h => ?_
    subst h
    refine PLe.bind .same fun _ _ h => ?_
    subst h
    exact .ok ⟨trivial, rfl⟩
  | _ => exact .panic

omit hu in
theorem inflateSeqLoop_er {s : SeqKind Value} (hs : CleanSeq s) (start : Nat) :
    ∀ n i {vs ws : List Value}, ERL vs ws →
      PLe ERL (Prelude.inflateSeqLoop s start vs i n) (Prelude.inflateSeqLoop (eraseSeq s) start ws i n)
  | 0, _, _, _, h => .ok h
  | n + 1, i, vs, ws, h => by
    simp only [Prelude.inflateSeqLoop, len_erase]
    split
    · have h1 := index_er hs (i + start)
      cases h2 : s.index (i + start) with
      | panic => exact .panic
      | ok x =>
        obtain ⟨b, h3, h4⟩ := h1 x h2
        simp only [h3]
        exact inflateSeqLoop_er hs start n _ (h.snoc h4)
    · have h1 := h.get (i + start - s.len)
      cases h2 : vs[i + start - s.len]? with
      | none => exact .panic
      | some x =>
        obtain ⟨b, h3, h4⟩ := h1 x (by rw [h2]; rfl)
        cases h5 : ws[i + start - s.len]? with
        | none => rw [h5] at h3; cases h3
        | some y =>
          rw [h5] at h3
          cases h3
          exact inflateSeqLoop_er hs start n _ (h.snoc h4)

omit hu in
theorem inflateRangeLoop_er (len start : Nat) : ∀ n (iter : List Nat) i {vs ws : List Value}, ERL vs ws →
    PLe ERL (Prelude.inflateRangeLoop Value.ofUsize len start vs iter i n)
      (Prelude.inflateRangeLoop Value.ofUsize len start ws iter i n)
  | 0, iter, _, _, _, h => by cases iter <;> exact .ok h
  | n + 1, x :: iter, i, vs, ws, h => by
    simp only [Prelude.inflateRangeLoop]
    exact inflateRangeLoop_er len start n iter _ (h.snoc (er_ofUsize _))
  | n + 1, [], i, vs, ws, h => by
    simp only [Prelude.inflateRangeLoop]
    split
    · exact .panic
    · have h1 := h.get (i + start - len)
      cases h2 : vs[i + start - len]? with
      | none => exact .panic
      | some x =>
        obtain ⟨b, h3, h4⟩ := h1 x (by rw [h2]; rfl)
        cases h5 : ws[i + start - len]? with
        | none => rw [h5] at h3; cases h3
        | some y =>
          rw [h5] at h3
          cases h3
          exact inflateRangeLoop_er len start n [] _ (h.snoc h4)

theorem inflateOf_er (i n : Nat) : PLe ER (Expr.inflateOf u i n) (Expr.inflateOf (erase u) i n) := by
  cases u with
  | seq s =>
    simp only [Expr.inflateOf, erase, Value.getSequence]
    exact PLe.bind (inflateSeqLoop_er hu i n 0 .nil) fun _ _ h => .ok h.seq
  | enumFromTo a b =>
    simp only [Expr.inflateOf, erase, Value.getSequence]
    exact PLe.bind (inflateRangeLoop_er _ i n _ 0 .nil) fun _ _ h => .ok h.seq
  | _ => exact .panic

end

theorem appendOf_er {u v : Value} (hu : Clean u) (hv : Clean v) :
    PLe ER (Expr.appendOf u v) (Expr.appendOf (erase u) (erase v)) := by
  cases u with
  | seq s =>
    cases v with
    | seq t =>
      simp only [Expr.appendOf, erase, Value.getSequence, Value.ValueSeq.isEmpty, isEmpty_erase]
      refine .ite (fun _ => .ok ⟨hv, by rw [erase]⟩) fun h1 => .ite (fun _ => .ok ⟨hu, by rw [erase]⟩) fun h2 => ?_
      simp only [Value.ValueSeq.append, SeqKind.append, isEmpty_erase, h1, h2, intoVec_erase,
        Bool.false_eq_true, if_false]
      refine .ok ⟨(cleanList_iff _).mpr fun x hx => ?_, ?_⟩
      · rcases List.mem_append.mp hx with hx | hx
        · refine cleanSeq_iter hu x ?_
          cases s <;> exact hx
        · refine cleanSeq_iter hv x ?_
          cases t <;> exact hx
      · rw [erase, eraseSeq, eraseList_eq, List.map_append]
    | enumFromTo a b =>
      simp only [Expr.appendOf, erase, Value.getSequence, Value.ValueSeq.isEmpty, isEmpty_erase]
      exact .ite (fun _ => .ok ⟨trivial, rfl⟩) fun h1 => .ite (fun _ => .ok ⟨hu, by rw [erase]⟩) fun h2 => .panic
    | _ => exact .panic
  | enumFromTo a b =>
    cases v with
    | seq t =>
      simp only [Expr.appendOf, erase, Value.getSequence, Value.ValueSeq.isEmpty, isEmpty_erase]
      exact .ite (fun _ => .ok ⟨hv, by rw [erase]⟩) fun h1 => .ite (fun _ => .ok ⟨trivial, rfl⟩) fun h2 => .panic
    | enumFromTo c d =>
      simp only [Expr.appendOf, erase, Value.getSequence]
      exact .ite (fun _ => .ok ⟨trivial, rfl⟩) fun h1 => .ite (fun _ => .ok ⟨trivial, rfl⟩) fun h2 => .panic
    | _ => exact .panic
  | _ => exact .panic

theorem needSeq_er {u : Value} (hu : Clean u) :
    PLe (fun s s' => CleanSeq s ∧ s' = eraseSeq s) (Expr.needSeq u) (Expr.needSeq (erase u)) := by
  cases u with
  | seq s => exact .ok ⟨hu, rfl⟩
  | _ => exact .panic

theorem items_er {u : Value} (hu : Clean u) :
    PLe ERL (do let q ← Panicky.unwrap u.getSequence; .ok q.items)
      (do let q ← Panicky.unwrap (erase u).getSequence; .ok q.items) := by
  cases u with
  | seq s =>
    refine .ok ⟨cleanSeq_iter hu, ?_⟩
    exact iter_erase s
  | enumFromTo a b => exact .ok (er_ranges _)
  | _ => exact .panic

theorem intRel_er (r : IntRel) (u v : Value) : PLe ER (Value.intRel r u v) (Value.intRel r (erase u) (erase v)) := by
  intro a h
  cases u <;> first | (cases h; done) | skip
  all_goals cases v <;> first | (cases h; done) | (rename UKind => k; cases k <;> cases h; done) | skip
  all_goals refine ⟨a, h, ?_, ?_⟩
  all_goals (simp only [Value.intRel] at h; (repeat' split at h) <;> first | (cases h; exact trivial) | (cases h; rfl) | cases h)

theorem arith_er (op : Arith) (u v : Value) : PLe ER (Value.arith op u v) (Value.arith op (erase u) (erase v)) := by
  intro a h
  cases u <;> first | (cases op <;> cases h; done) | skip
  all_goals cases v <;> first | (cases op <;> cases h; done) | skip
  all_goals refine ⟨a, h, ?_⟩
  · cases op <;> first | (cases h; done) | (cases h; exact ⟨trivial, rfl⟩)
  · cases op <;> simp only [Value.arith, Value.arithNum, Value.mkNum] at h <;> (repeat' split at h) <;>
      first | (cases h; done) | (cases h; exact ⟨trivial, rfl⟩)

theorem unary_er (op : UnaryOp) (u : Value) : PLe ER (Value.unary op u) (Value.unary op (erase u)) := by
  intro a h
  cases u <;> first | (cases op <;> cases h; done) | skip
  all_goals refine ⟨a, h, ?_⟩
  · cases op <;> first | (cases h; done) | (cases h; exact ⟨trivial, rfl⟩)
  · cases op <;> simp only [Value.unary, Value.mkNum] at h <;> (repeat' split at h) <;>
      first | (cases h; done) | (cases h; exact ⟨trivial, rfl⟩)

/-! ### patterns -/

/-- both absent, or both present and related -/
def OLe {α β : Type} (r : α → β → Prop) : Option α → Option β → Prop
  | none, none => True
  | some a, some b => r a b
  | _, _ => False

theorem OLe.both {α β : Type} {r : α → β → Prop} {x : Option α} {y : Option β} (h : OLe r x y) :
    (x = none ∧ y = none) ∨ ∃ a b, x = some a ∧ y = some b ∧ r a b := by
  cases x <;> cases y <;> first | exact .inl ⟨rfl, rfl⟩ | exact .inr ⟨_, _, rfl, rfl, h⟩ | exact h.elim

theorem OLe.unwrap {α β : Type} {r : α → β → Prop} {x : Option α} {y : Option β} (h : OLe r x y) :
    PLe r (Panicky.unwrap x) (Panicky.unwrap y) := by
  cases x <;> cases y <;> first | exact .panic | exact .ok h | exact h.elim

/-- related bindings -/
def EB (bs bs' : List (String × Value)) : Prop := (∀ b ∈ bs, Clean b.2) ∧ bs' = bs.map fun b => (b.1, erase b.2)

theorem EB.nil : EB [] [] := ⟨(fun _ h => by cases h), rfl⟩

theorem EB.snoc {bs bs' : List (String × Value)} {n : String} {v w : Value} (h : EB bs bs') (hv : ER v w) :
    EB (bs ++ [(n, v)]) (bs' ++ [(n, w)]) := by
  obtain ⟨h1, rfl⟩ := h
  obtain ⟨h2, rfl⟩ := hv
  refine ⟨?_, by simp⟩
  intro b hb
  rcases List.mem_append.mp hb with hb | hb
  · exact h1 b hb
  · cases hb with
    | head => exact h2
    | tail _ hb => cases hb

theorem simple_er : ∀ {p : Pattern} (_ : PatSimple p) {v : Value} (_ : Clean v) {acc acc' : List (String × Value)}
    (_ : EB acc acc'), OLe EB (p.matchesInner v acc) (p.matchesInner (erase v) acc')
  | .binding n, _, v, hv, acc, acc', ha => by
    simp only [Pattern.matchesInner]; exact ha.snoc ⟨hv, rfl⟩
  | .wildcard, _, v, hv, acc, acc', ha => by
    simp only [Pattern.matchesInner]; exact ha

theorem simpleAll_er : ∀ {ps : List Pattern} (_ : ∀ p ∈ ps, PatSimple p) {vs : List Value} (_ : ∀ v ∈ vs, Clean v)
    {acc acc' : List (String × Value)} (_ : EB acc acc'),
    OLe EB (Pattern.matchesAll ps vs acc) (Pattern.matchesAll ps (vs.map erase) acc')
  | [], _, vs, _, acc, acc', ha => by
    cases vs <;> (simp only [List.map_nil, List.map_cons, Pattern.matchesAll]; exact ha)
  | p :: ps, hp, [], _, acc, acc', ha => by simp only [List.map_nil, Pattern.matchesAll]; exact ha
  | p :: ps, hp, v :: vs, hv, acc, acc', ha => by
    have h1 := simple_er (hp p (by simp)) (hv v (by simp)) ha
    simp only [List.map_cons, Pattern.matchesAll]
    obtain ⟨h2, h3⟩ | ⟨a, b, h2, h3, h4⟩ := h1.both
    · simp only [h2, h3]; trivial
    · simp only [h2, h3]
      exact simpleAll_er (fun q hq => hp q (by simp [hq])) (fun x hx => hv x (by simp [hx])) h4

/-- no mark outside -/
def Bare : Value → Prop
  | .mapped _ _ => False
  | .branch _ _ => False
  | .permitOk _ => False
  | .permitErr _ => False
  | .permitErrNone => False
  | _ => True

theorem bare_coerce : ∀ {v : Value}, Clean v → Bare v.coerceMapped
  | .mapped _ v, h => by simp only [Clean] at h; simp only [Value.coerceMapped]; exact bare_coerce h
  | .branch _ v, h => by simp only [Clean] at h; simp only [Value.coerceMapped]; exact bare_coerce h
  | .permitOk _, h => by simp only [Clean] at h
  | .permitErr _, h => by simp only [Clean] at h
  | .permitErrNone, h => by simp only [Clean] at h
  | .bool _, _ => trivial
  | .num _ _, _ => trivial
  | .char _, _ => trivial
  | .numeric _, _ => trivial
  | .view _, _ => trivial
  | .phantom, _ => trivial
  | .enumFromTo _ _, _ => trivial
  | .optNone, _ => trivial
  | .optSome _, _ => trivial
  | .tuple _, _ => trivial
  | .record _, _ => trivial
  | .variant _ _, _ => trivial
  | .seq _, _ => trivial

theorem matchesFlat_erase {v : Value} (h : Bare v) (p : Pattern) : (erase v).matchesFlat p = v.matchesFlat p := by
  cases v <;> first | exact h.elim | rfl | (cases p <;> rfl)

theorem fallback_er {v : Value} (h : Bare v) (p : Pattern) : OLe EB
    (if v.matchesFlat p then some [] else none) (if (erase v).matchesFlat p then some [] else none) := by
  rw [matchesFlat_erase h]
  split
  · exact EB.nil
  · trivial

theorem flat_er : ∀ {p : Pattern} (_ : PatFlat p) {v : Value} (_ : Clean v) (_ : Bare v),
    OLe EB (p.matchesInner v []) (p.matchesInner (erase v) [])
  | .binding n, _, v, hv, _ => simple_er (p := .binding n) trivial hv EB.nil
  | .wildcard, _, v, hv, _ => simple_er (p := .wildcard) trivial hv EB.nil
  | .tuple ps, hp, v, hv, hb => by
    cases v <;> first | exact hb.elim | skip
    case tuple vs =>
      simp only [Pattern.matchesInner, erase, eraseList_eq, List.length_map]
      split
      · exact simpleAll_er hp ((cleanList_iff _).mp hv) EB.nil
      · trivial
    all_goals (simp only [Pattern.matchesInner, erase]; trivial)
  | .seq ps, hp, v, hv, hb => by
    cases v <;> first | exact hb.elim | skip
    case seq vs =>
      simp only [Pattern.matchesInner, erase, len_erase, iter_erase]
      split
      · exact simpleAll_er hp (cleanSeq_iter hv) EB.nil
      · trivial
    all_goals (simp only [Pattern.matchesInner, erase]; trivial)
  | .variant l q, hp, v, hv, hb => by
    cases v <;> first | exact hb.elim | skip
    case variant l' v =>
      simp only [Pattern.matchesInner, erase]
      split
      · exact simple_er (v := v) hp hv EB.nil
      · trivial
    all_goals (simp only [Pattern.matchesInner, erase]; trivial)
  | .optSome q, hp, v, hv, hb => by
    cases v <;> first | exact hb.elim | skip
    case optSome v =>
      simp only [Pattern.matchesInner, erase]
      exact simple_er (v := v) hp hv EB.nil
    all_goals (simp only [Pattern.matchesInner, erase]; trivial)
  | .optNone, hp, v, hv, hb => by
    cases v <;> first | exact hb.elim | skip
    case optNone => simp only [Pattern.matchesInner, erase]; exact EB.nil
    all_goals (simp only [Pattern.matchesInner, erase]; trivial)
  | .bool b, _, v, hv, hb => by simp only [Pattern.matchesInner]; exact fallback_er hb _
  | .lit w n, _, v, hv, hb => by simp only [Pattern.matchesInner]; exact fallback_er hb _
  | .int b, _, v, hv, hb => by simp only [Pattern.matchesInner]; exact fallback_er hb _
  | .zConst b, _, v, hv, hb => by simp only [Pattern.matchesInner]; exact fallback_er hb _
  | .zRange b, _, v, hv, hb => by simp only [Pattern.matchesInner]; exact fallback_er hb _
  | .char b, _, v, hv, hb => by simp only [Pattern.matchesInner]; exact fallback_er hb _

theorem matchesPat_er {p : Pattern} (hp : PatFlat p) {v w : Value} (h : ER v w) :
    OLe EB (v.matchesPat p) (w.matchesPat p) := by
  obtain ⟨h1, rfl⟩ := h
  unfold Value.matchesPat
  rw [coerceNominal_erase, coerceNominal_clean h1, ← erase_coerceMapped v]
  exact flat_er hp (clean_coerce h1) (bare_coerce h1)

/-! ### scopes -/

/-- every name is bound to related values, or to none in both -/
def SR (s : Scope δ) (s' : Scope δ') : Prop := ∀ x, OLe ER (s.getValue x) (s'.getValue x)

theorem SR.single {s : Scope δ} {s' : Scope δ'} (h : SR s s') {n : String} {v w : Value} (hv : ER v w) :
    SR (.single n v s) (.single n w s') := by
  intro x
  simp only [Scope.getValue]
  split
  · exact hv
  · exact h x

theorem findValue_er (x : String) : ∀ {bs bs' : List (String × Value)}, EB bs bs' →
    OLe ER (Scope.findValue x (bs.map fun b => (b.1, ViewOrValue.value b.2)))
      (Scope.findValue x (bs'.map fun b => (b.1, ViewOrValue.value b.2)))
  | [], _, ⟨_, rfl⟩ => trivial
  | (n, v) :: bs, _, ⟨h1, rfl⟩ => by
    simp only [List.map_cons, Scope.findValue]
    split
    · exact ⟨h1 (n, v) (by simp), rfl⟩
    · exact findValue_er x ⟨fun b hb => h1 b (by simp [hb]), rfl⟩

theorem EB.reverse {bs bs' : List (String × Value)} (h : EB bs bs') : EB bs.reverse bs'.reverse := by
  obtain ⟨h1, rfl⟩ := h
  exact ⟨fun b hb => h1 b (List.mem_reverse.mp hb), by rw [List.map_reverse]⟩

theorem SR.withBindings {s : Scope δ} {s' : Scope δ'} (h : SR s s') {bs bs' : List (String × Value)} (hb : EB bs bs') :
    SR (s.withBindings bs) (s'.withBindings bs') := by
  intro x
  have h1 := findValue_er x hb.reverse
  rw [List.map_reverse, List.map_reverse] at h1
  simp only [Scope.withBindings, Scope.getValue]
  obtain ⟨h2, h3⟩ | ⟨a, b, h2, h3, h4⟩ := h1.both
  · simp only [h2, h3]; exact h x
  · simp only [h2, h3]; exact h4

theorem SR.numLookup {s : Scope δ} {s' : Scope δ'} (h : SR s s') : s'.numLookup = s.numLookup := by
  funext x
  unfold Scope.numLookup
  obtain ⟨h2, h3⟩ | ⟨a, b, h2, h3, h4⟩ := (h x).both
  · simp only [h2, h3]
  · simp only [h2, h3, h4.2, toStrict_erase]

/-! ### keyed search -/

theorem compareAsKey_er (u v : Value) : PLe (fun a b => b = a) (u.compareAsKey v) ((erase u).compareAsKey (erase v)) := by
  intro a h
  cases u <;> first | (cases h; done) | skip
  rename_i k n
  cases k <;> first | (cases h; done) | skip
  cases v <;> first | (cases h; done) | skip
  exact ⟨a, h, rfl⟩

theorem eqKey_er (u v : Value) : PLe (fun a b => b = a) (u.eqKey v) ((erase u).eqKey (erase v)) := by
  intro a h
  cases u <;> first | (cases h; done) | skip
  rename_i k n
  cases k <;> first | (cases h; done) | skip
  cases v <;> first | (cases h; done) | skip
  exact ⟨a, h, rfl⟩

section Search
variable {cmp cmp' : Value → Panicky Ordering} {key key' : Nat → Panicky Value}
variable (hc : ∀ k k', ER k k' → PLe (fun a b => b = a) (cmp k) (cmp' k')) (hk : ∀ i, PLe ER (key i) (key' i))
include hc hk

theorem step_er {α β : Type} {r : α → β → Prop} (i : Nat) {f : Ordering → Panicky α} {g : Ordering → Panicky β}
    (h : ∀ o, PLe r (f o) (g o)) :
    PLe r (match key i with | .panic => .panic | .ok k => match cmp k with | .panic => .panic | .ok o => f o)
      (match key' i with | .panic => .panic | .ok k => match cmp' k with | .panic => .panic | .ok o => g o) := by
  cases h1 : key i with
  | panic => exact .panic
  | ok k =>
    obtain ⟨k', h2, h3⟩ := hk i k h1
    simp only [h2]
    cases h4 : cmp k with
    | panic => exact .panic
    | ok o =>
      obtain ⟨o', h5, rfl⟩ := hc k k' h3 o h4
      simp only [h5]
      exact h _

theorem searchLoop_er : ∀ fuel lo hi, PLe (fun a b => b = a) (searchLoop cmp key fuel lo hi) (searchLoop cmp' key' fuel lo hi)
  | 0, _, _ => .panic
  | fuel + 1, lo, hi => by
    simp only [searchLoop]
    refine .ite (fun _ => ?_) (fun _ => .same)
    cases h1 : key ((lo + hi) / 2) with
    | panic => exact .panic
    | ok k =>
      obtain ⟨k', h2, h3⟩ := hk _ k h1
      simp only [h2]
      cases h4 : cmp k with
      | panic => exact .panic
      | ok o =>
        obtain ⟨o', h5, rfl⟩ := hc k k' h3 o h4
        simp only [h5]
        cases o' with
        | lt => exact .ite (fun _ => .panic) (fun _ => searchLoop_er fuel _ _)
        | eq => exact .same
        | gt => exact searchLoop_er fuel _ _

theorem findSorted_er (len : Nat) :
    PLe (fun a b => b = a) (findIndexByKeySorted cmp key len) (findIndexByKeySorted cmp' key' len) := by
  simp only [findIndexByKeySorted]
  refine .ite (fun _ => .same) (fun _ => ?_)
  cases h1 : key 0 with
  | panic => exact .panic
  | ok k =>
    obtain ⟨k', h2, h3⟩ := hk _ k h1
    simp only [h2]
    cases h4 : cmp k with
    | panic => exact .panic
    | ok o =>
      obtain ⟨o', h5, rfl⟩ := hc k k' h3 o h4
      simp only [h5]
      cases o' with
      | lt => exact .same
      | eq => exact .same
      | gt =>
        refine .ite (fun _ => .same) (fun _ => ?_)
        cases h1 : key (len - 1) with
        | panic => exact .panic
        | ok k =>
          obtain ⟨k', h2, h3⟩ := hk _ k h1
          simp only [h2]
          cases h4 : cmp k with
          | panic => exact .panic
          | ok o =>
            obtain ⟨o', h5, rfl⟩ := hc k k' h3 o h4
            simp only [h5]
            cases o' with
            | gt => exact .same
            | eq => exact .same
            | lt => exact .ite (fun _ => .same) (fun _ => searchLoop_er hc hk _ _ _)

end Search

theorem findUnsorted_er {eq eq' : Value → Panicky Bool} {f g : Value → Panicky Value}
    (hc : ∀ k k', ER k k' → PLe (fun a b => b = a) (eq k) (eq' k'))
    (hf : ∀ v w, ER v w → PLe ER (f v) (g w)) : ∀ {vs ws : List Value} (_ : ERL vs ws) (ix : Nat),
    PLe (fun a b => b = a) (findIndexByKeyUnsorted eq f vs ix) (findIndexByKeyUnsorted eq' g ws ix)
  | [], _, ⟨_, rfl⟩, _ => .same
  | v :: vs, _, ⟨h, rfl⟩, ix => by
    simp only [List.map_cons, findIndexByKeyUnsorted]
    cases h1 : f v with
    | panic => exact .panic
    | ok k =>
      obtain ⟨k', h2, h3⟩ := hf v (erase v) ⟨h v (by simp), rfl⟩ k h1
      simp only [h2]
      cases h4 : eq k with
      | panic => exact .panic
      | ok o =>
        obtain ⟨o', h5, rfl⟩ := hc k k' h3 o h4
        simp only [h5]
        cases o' with
        | true => exact .same
        | false => exact findUnsorted_er hc hf ⟨fun x hx => h x (by simp [hx]), rfl⟩ _

theorem findByKeyOf_er (sorted : Bool) {f g : Value → Panicky Value} (hf : ∀ v w, ER v w → PLe ER (f v) (g w))
    (q : Value) {s : SeqKind Value} (hs : CleanSeq s) :
    PLe ER (Expr.findByKeyOf sorted f q s) (Expr.findByKeyOf sorted g (erase q) (eraseSeq s)) := by
  have h1 : ∀ k k', ER k k' → PLe (fun a b => b = a) (q.compareAsKey k) ((erase q).compareAsKey k') := by
    rintro k _ ⟨_, rfl⟩; exact compareAsKey_er q k
  have h2 : ∀ k k', ER k k' → PLe (fun a b => b = a) (q.eqKey k) ((erase q).eqKey k') := by
    rintro k _ ⟨_, rfl⟩; exact eqKey_er q k
  have hend : ∀ a b : Option Nat, b = a → PLe ER
      (match a with
        | some i => do
          let v ← s.index i
          .ok (.optSome v)
        | none => .ok .optNone)
      (match b with
        | some i => do
          let v ← (eraseSeq s).index i
          .ok (.optSome v)
        | none => .ok .optNone) := by
    intro a b hab
    subst hab
    cases b with
    | none => exact .ok ⟨trivial, rfl⟩
    | some i => exact PLe.bind (index_er hs i) fun _ _ h => .ok ⟨h.1, by rw [h.2, erase]⟩
  unfold Expr.findByKeyOf
  simp only
  refine .ite (fun _ => ?_) (fun _ => ?_)
  · rw [len_erase]
    exact PLe.bind (findSorted_er h1 (fun i => PLe.bind (index_er hs i) hf) _) hend
  · rw [iter_erase]
    exact PLe.bind (findUnsorted_er h2 hf ⟨cleanSeq_iter hs, rfl⟩ 0) hend

/-! ### loops -/

section Loops
variable {f g : Value → Panicky Value} (hf : ∀ v w, ER v w → PLe ER (f v) (g w))
include hf

theorem flatMapLoop_er : ∀ {xs ys : List Value} (_ : ERL xs ys) {vs ws : List Value} (_ : ERL vs ws),
    PLe ERL (Expr.flatMapLoop f vs xs) (Expr.flatMapLoop g ws ys)
  | [], _, ⟨_, rfl⟩, vs, ws, h => .ok h
  | x :: xs, _, ⟨hx, rfl⟩, vs, ws, h => by
    simp only [List.map_cons, Expr.flatMapLoop]
    refine PLe.bind (hf x _ ⟨hx x (by simp), rfl⟩) ?_
    rintro r _ ⟨hr, rfl⟩
    have h1 := items_er hr
    cases h2 : r.getSequence with
    | none => exact .panic
    | some q =>
      rw [h2] at h1
      obtain ⟨l, h3, h4⟩ := h1 q.items rfl
      cases h5 : (erase r).getSequence with
      | none => rw [h5] at h3; cases h3
      | some q' =>
        rw [h5] at h3
        cases h3
        exact flatMapLoop_er ⟨fun y hy => hx y (by simp [hy]), rfl⟩ (h.append h4)

theorem flatMapAccumLoop_er : ∀ {xs ys : List Value} (_ : ERL xs ys) {a b : Value} (_ : ER a b)
    {vs ws : List Value} (_ : ERL vs ws),
    PLe ERL (Expr.flatMapAccumLoop f a vs xs) (Expr.flatMapAccumLoop g b ws ys)
  | [], _, ⟨_, rfl⟩, a, b, _, vs, ws, h => .ok h
  | x :: xs, _, ⟨hx, rfl⟩, a, b, hab, vs, ws, h => by
    simp only [List.map_cons, Expr.flatMapAccumLoop]
    refine PLe.bind (hf _ _ (ERL.tuple (.cons hab (.cons ⟨hx x (by simp), rfl⟩ .nil)))) ?_
    rintro r _ ⟨hr, rfl⟩
    split
    · next a' vn =>
      simp only [erase, eraseList]
      simp only [Clean, CleanList] at hr
      refine flatMapAccumLoop_er ⟨fun y hy => hx y (by simp [hy]), rfl⟩ ⟨hr.1, rfl⟩ ?_
      exact h.append ⟨cleanSeq_iter hr.2.1, iter_erase vn⟩
    · exact .panic

theorem leftFoldLoop_er : ∀ {xs ys : List Value} (_ : ERL xs ys) {a b : Value} (_ : ER a b),
    PLe ER (Expr.leftFoldLoop f a xs) (Expr.leftFoldLoop g b ys)
  | [], _, ⟨_, rfl⟩, a, b, hab => .ok hab
  | x :: xs, _, ⟨hx, rfl⟩, a, b, hab => by
    simp only [List.map_cons, Expr.leftFoldLoop]
    refine PLe.bind (hf _ _ (ERL.tuple (.cons hab (.cons ⟨hx x (by simp), rfl⟩ .nil)))) ?_
    intro r r' hr
    exact leftFoldLoop_er ⟨fun y hy => hx y (by simp [hy]), rfl⟩ hr

theorem flatMapListLoop_er : ∀ {xs ys : List Value} (_ : ERL xs ys) {vs ws : List Value} (_ : ERL vs ws),
    PLe ERL (Expr.flatMapListLoop f vs xs) (Expr.flatMapListLoop g ws ys)
  | [], _, ⟨_, rfl⟩, vs, ws, h => .ok h
  | x :: xs, _, ⟨hx, rfl⟩, vs, ws, h => by
    simp only [List.map_cons, Expr.flatMapListLoop]
    refine PLe.bind (hf _ _ (ERL.tuple (.cons h.seq (.cons ⟨hx x (by simp), rfl⟩ .nil)))) ?_
    rintro r _ ⟨hr, rfl⟩
    split
    · next vn =>
      simp only [erase]
      refine flatMapListLoop_er ⟨fun y hy => hx y (by simp [hy]), rfl⟩ ?_
      exact h.append ⟨cleanSeq_iter hr, iter_erase vn⟩
    · exact .panic

end Loops

/-! ### evaluation -/

/-- coerced operands -/
theorem PLe.coerced {α : Type} {r : α → α → Prop} {v w : Value} (h : ER v w) {op : Value → Panicky α}
    (hop : ∀ {u : Value}, Clean u → PLe r (op u) (op (erase u))) : PLe r (op v.coerceMapped) (op w.coerceMapped) := by
  obtain ⟨h1, h2⟩ := h.coerce
  rw [h2]
  exact hop h1

set_option maxHeartbeats 4000000 in
mutual
theorem eval_er : ∀ (e : Expr) (_ : ExprFlat e) {s : Scope δ} {s' : Scope δ'} (_ : SR s s'),
    PLe ER (e.eval s) (e.eval s')
  | .var n, _, s, s', hs => by simp only [Expr.eval]; exact (hs n).unwrap
  | .bool b, _, s, s', hs => by simp only [Expr.eval]; exact .ok ⟨trivial, rfl⟩
  | .lit w n, _, s, s', hs => by simp only [Expr.eval]; exact .ok ⟨trivial, rfl⟩
  | .numeric n, _, s, s', hs => by
    simp only [Expr.eval, hs.numLookup]
    cases n.eval s.numLookup with
    | ok c => exact .ok ⟨trivial, rfl⟩
    | err _ => exact .panic
    | panic => exact .panic
  | .tuple es, hc, s, s', hs => by
    simp only [Expr.eval]; exact (evalValues_er es hc hs).bind fun _ _ h => .ok h.tuple
  | .tupleProj e i, hc, s, s', hs => by
    simp only [Expr.eval]
    exact (eval_er e hc hs).bind fun _ _ h => .coerced (op := fun u => u.tupleProj i) h fun hu => tupleProj_er hu i
  | .record fs, hc, s, s', hs => by
    simp only [Expr.eval]
    refine (evalFields_er fs hc hs).bind fun vs _ h => .ok ⟨(cleanFields_iff _).mpr h.1, ?_⟩
    rw [h.2, erase, eraseFields_eq]
  | .recordProj e l, hc, s, s', hs => by
    simp only [Expr.eval]
    exact (eval_er e hc hs).bind fun _ _ h => .coerced (op := fun u => u.recordProj l) h fun hu => recordProj_er hu l
  | .variant l e, hc, s, s', hs => by
    simp only [Expr.eval]
    exact (eval_er e hc hs).bind fun _ _ h => .ok ⟨h.coerce.1, by rw [erase, ← h.coerce.2]⟩
  | .seq es, hc, s, s', hs => by
    simp only [Expr.eval]; exact (evalValues_er es hc hs).bind fun _ _ h => .ok h.seq
  | .match_ e bs, hc, s, s', hs => by
    simp only [Expr.eval]
    exact (eval_er e hc.1 hs).bind fun _ _ h => evalBranches_er bs hc.2 hs h
  | .destructure e p b, hc, s, s', hs => by
    simp only [Expr.eval]
    refine (eval_er e hc.1 hs).bind fun x y h => ?_
    have h1 := matchesPat_er hc.2.1 h
    obtain ⟨h4, h5⟩ | ⟨a, b', h4, h5, h6⟩ := h1.both
    · simp only [h4, h5]; exact .panic
    · simp only [h4, h5]
      exact PLe.bind (eval_er b hc.2.2 (hs.withBindings h6)) fun _ _ h => .ok h.coerce
  | .lambda _ _, _, s, s', hs => by simp only [Expr.eval]; exact .panic
  | .intRel r x y, hc, s, s', hs => by
    simp only [Expr.eval]
    refine (eval_er x hc.1 hs).bind fun _ _ h => ?_
    refine (eval_er y hc.2 hs).bind fun _ _ h' => ?_
    rw [h.coerce.2, h'.coerce.2]
    exact intRel_er _ _ _
  | .arith r x y, hc, s, s', hs => by
    simp only [Expr.eval]
    refine (eval_er x hc.1 hs).bind fun _ _ h => ?_
    refine (eval_er y hc.2 hs).bind fun _ _ h' => ?_
    rw [h.coerce.2, h'.coerce.2]
    exact arith_er _ _ _
  | .unary op x, hc, s, s', hs => by
    simp only [Expr.eval]
    exact (eval_er x hc hs).bind fun _ _ h => .coerced (op := Value.unary op) h fun _ => unary_er op _
  | .asNum w x, hc, s, s', hs => by
    simp only [Expr.eval]
    exact (eval_er x hc hs).bind fun _ _ h => .coerced (op := Expr.castTo w) h fun _ => castTo_er w
  | .asChar x, hc, s, s', hs => by
    simp only [Expr.eval]
    exact (eval_er x hc hs).bind fun _ _ h => .coerced (op := Expr.castChar) h fun _ => castChar_er
  | .fromBytes w be x, hc, s, s', hs => by
    simp only [Expr.eval]
    exact (eval_er x hc hs).bind fun _ _ h => .coerced (op := Expr.wordOf w be) h fun _ => wordOf_er w be
  | .seqLength x, hc, s, s', hs => by
    simp only [Expr.eval]
    exact (eval_er x hc hs).bind fun _ _ h => .coerced (op := Expr.lengthOf) h fun _ => lengthOf_er
  | .seqIx x y, hc, s, s', hs => by
    simp only [Expr.eval]
    refine (eval_er x hc.1 hs).bind fun _ _ h => ?_
    refine (eval_er y hc.2 hs).bind fun _ _ h' => ?_
    refine PLe.bind (PLe.coerced h' (fun _ => unwrapUsize_er)) fun a b hab => ?_
    subst hab
    exact .coerced (op := fun u => Expr.indexOf u _) h fun hu => indexOf_er hu _
  | .subSeq x y z, hc, s, s', hs => by
    simp only [Expr.eval]
    refine (eval_er x hc.1 hs).bind fun _ _ h => ?_
    refine (eval_er y hc.2.1 hs).bind fun _ _ h' => ?_
    refine PLe.bind (PLe.coerced h' (fun _ => unwrapUsize_er)) fun a b hab => ?_
    subst hab
    refine (eval_er z hc.2.2 hs).bind fun _ _ h' => ?_
    refine PLe.bind (PLe.coerced h' (fun _ => unwrapUsize_er)) fun a b hab => ?_
    subst hab
    exact .coerced (op := fun u => Expr.subSeqOf u _ _) h fun hu => subSeqOf_er hu _ _
  | .subSeqInflate x y z, hc, s, s', hs => by
    simp only [Expr.eval]
    refine (eval_er x hc.1 hs).bind fun _ _ h => ?_
    refine (eval_er y hc.2.1 hs).bind fun _ _ h' => ?_
    refine PLe.bind (PLe.coerced h' (fun _ => unwrapUsize_er)) fun a b hab => ?_
    subst hab
    refine (eval_er z hc.2.2 hs).bind fun _ _ h' => ?_
    refine PLe.bind (PLe.coerced h' (fun _ => unwrapUsize_er)) fun a b hab => ?_
    subst hab
    exact .coerced (op := fun u => Expr.inflateOf u _ _) h fun hu => inflateOf_er hu _ _
  | .append x y, hc, s, s', hs => by
    simp only [Expr.eval]
    refine (eval_er x hc.1 hs).bind fun _ _ h => ?_
    refine (eval_er y hc.2 hs).bind fun _ _ h' => ?_
    rw [h.coerce.2, h'.coerce.2]
    exact appendOf_er h.coerce.1 h'.coerce.1
  | .flatMap f x, hc, s, s', hs => by
    simp only [Expr.eval]
    refine (eval_er x hc.2 hs).bind fun v w h => ?_
    have h1 := items_er h.coerce.1
    rw [h.coerce.2]
    cases h2 : v.coerceMapped.getSequence with
    | none => exact .panic
    | some q =>
      rw [h2] at h1
      obtain ⟨l, h3, h4⟩ := h1 q.items rfl
      cases h5 : (erase v.coerceMapped).getSequence with
      | none => rw [h5] at h3; cases h3
      | some q' =>
        rw [h5] at h3
        cases h3
        exact PLe.bind (flatMapLoop_er (fun v w h => evalLambda_er f hc.1 hs h) h4 .nil) fun _ _ h => .ok h.seq
  | .flatMapAccum f a t x, hc, s, s', hs => by
    simp only [Expr.eval]
    refine (eval_er x hc.2.2 hs).bind fun _ _ h => ?_
    refine PLe.bind (PLe.coerced h needSeq_er) fun sq _ hq => ?_
    obtain ⟨hq, rfl⟩ := hq
    refine (eval_er a hc.2.1 hs).bind fun _ _ h' => ?_
    exact PLe.bind (flatMapAccumLoop_er (fun v w h => evalLambda_er f hc.1 hs h) ⟨cleanSeq_iter hq, iter_erase sq⟩
      h'.coerce .nil) fun _ _ h => .ok h.seq
  | .leftFold f a t x, hc, s, s', hs => by
    simp only [Expr.eval]
    refine (eval_er x hc.2.2 hs).bind fun _ _ h => ?_
    refine PLe.bind (PLe.coerced h needSeq_er) fun sq _ hq => ?_
    obtain ⟨hq, rfl⟩ := hq
    refine (eval_er a hc.2.1 hs).bind fun _ _ h' => ?_
    exact leftFoldLoop_er (fun v w h => evalLambda_er f hc.1 hs h) ⟨cleanSeq_iter hq, iter_erase sq⟩ h'.coerce
  | .findByKey sorted f q x, hc, s, s', hs => by
    simp only [Expr.eval]
    refine (eval_er x hc.2.2 hs).bind fun _ _ h => ?_
    refine PLe.bind (PLe.coerced h needSeq_er) fun sq _ hq => ?_
    obtain ⟨hq, rfl⟩ := hq
    refine (eval_er q hc.2.1 hs).bind fun _ _ h' => ?_
    rw [h'.coerce.2]
    exact findByKeyOf_er sorted (fun v w h => evalLambda_er f hc.1 hs h) _ hq
  | .flatMapList f t x, hc, s, s', hs => by
    simp only [Expr.eval]
    refine (eval_er x hc.2 hs).bind fun _ _ h => ?_
    refine PLe.bind (PLe.coerced h needSeq_er) fun sq _ hq => ?_
    obtain ⟨hq, rfl⟩ := hq
    exact PLe.bind (flatMapListLoop_er (fun v w h => evalLambda_er f hc.1 hs h) ⟨cleanSeq_iter hq, iter_erase sq⟩ .nil)
      fun _ _ h => .ok h.seq
  | .dup x y, hc, s, s', hs => by
    simp only [Expr.eval]
    refine (eval_er x hc.1 hs).bind fun _ _ h' => ?_
    refine PLe.bind (PLe.coerced h' (fun _ => unwrapUsize_er)) fun a b hab => ?_
    subst hab
    refine (eval_er y hc.2 hs).bind fun _ _ h => ?_
    exact .ok ⟨h.coerce.1, by rw [erase, eraseSeq, ← h.coerce.2]⟩
  | .enumFromTo x y, hc, s, s', hs => by
    simp only [Expr.eval]
    refine (eval_er x hc.1 hs).bind fun _ _ h' => ?_
    refine PLe.bind (PLe.coerced h' (fun _ => unwrapUsize_er)) fun a b hab => ?_
    subst hab
    refine (eval_er y hc.2 hs).bind fun _ _ h' => ?_
    refine PLe.bind (PLe.coerced h' (fun _ => unwrapUsize_er)) fun a b hab => ?_
    subst hab
    refine PLe.bind .same fun a b hab => ?_
    subst hab
    refine PLe.bind .same fun a b hab => ?_
    subst hab
    exact .ok ⟨trivial, rfl⟩
  | .liftNone, _, s, s', hs => by simp only [Expr.eval]; exact .ok ⟨trivial, rfl⟩
  | .liftSome x, hc, s, s', hs => by
    simp only [Expr.eval]
    exact (eval_er x hc hs).bind fun _ _ h => .ok ⟨h.coerce.1, by rw [erase, ← h.coerce.2]⟩

theorem evalLambda_er : ∀ (e : Expr) (_ : ExprFlat e) {s : Scope δ} {s' : Scope δ'} (_ : SR s s') {v w : Value}
    (_ : ER v w), PLe ER (e.evalLambda s v) (e.evalLambda s' w)
  | .lambda n b, hc, s, s', hs, v, w, h => by
    simp only [Expr.evalLambda]
    exact PLe.bind (eval_er b hc (hs.single h)) fun _ _ h => .ok h.coerce
  | .var _, _, _, _, _, _, _, _ => by simp only [Expr.evalLambda]; exact .panic
  | .bool _, _, _, _, _, _, _, _ => by simp only [Expr.evalLambda]; exact .panic
  | .lit _ _, _, _, _, _, _, _, _ => by simp only [Expr.evalLambda]; exact .panic
  | .numeric _, _, _, _, _, _, _, _ => by simp only [Expr.evalLambda]; exact .panic
  | .tuple _, _, _, _, _, _, _, _ => by simp only [Expr.evalLambda]; exact .panic
  | .tupleProj _ _, _, _, _, _, _, _, _ => by simp only [Expr.evalLambda]; exact .panic
  | .record _, _, _, _, _, _, _, _ => by simp only [Expr.evalLambda]; exact .panic
  | .recordProj _ _, _, _, _, _, _, _, _ => by simp only [Expr.evalLambda]; exact .panic
  | .variant _ _, _, _, _, _, _, _, _ => by simp only [Expr.evalLambda]; exact .panic
  | .seq _, _, _, _, _, _, _, _ => by simp only [Expr.evalLambda]; exact .panic
  | .match_ _ _, _, _, _, _, _, _, _ => by simp only [Expr.evalLambda]; exact .panic
  | .destructure _ _ _, _, _, _, _, _, _, _ => by simp only [Expr.evalLambda]; exact .panic
  | .intRel _ _ _, _, _, _, _, _, _, _ => by simp only [Expr.evalLambda]; exact .panic
  | .arith _ _ _, _, _, _, _, _, _, _ => by simp only [Expr.evalLambda]; exact .panic
  | .unary _ _, _, _, _, _, _, _, _ => by simp only [Expr.evalLambda]; exact .panic
  | .asNum _ _, _, _, _, _, _, _, _ => by simp only [Expr.evalLambda]; exact .panic
  | .asChar _, _, _, _, _, _, _, _ => by simp only [Expr.evalLambda]; exact .panic
  | .fromBytes _ _ _, _, _, _, _, _, _, _ => by simp only [Expr.evalLambda]; exact .panic
  | .seqLength _, _, _, _, _, _, _, _ => by simp only [Expr.evalLambda]; exact .panic
  | .seqIx _ _, _, _, _, _, _, _, _ => by simp only [Expr.evalLambda]; exact .panic
  | .subSeq _ _ _, _, _, _, _, _, _, _ => by simp only [Expr.evalLambda]; exact .panic
  | .subSeqInflate _ _ _, _, _, _, _, _, _, _ => by simp only [Expr.evalLambda]; exact .panic
  | .append _ _, _, _, _, _, _, _, _ => by simp only [Expr.evalLambda]; exact .panic
  | .flatMap _ _, _, _, _, _, _, _, _ => by simp only [Expr.evalLambda]; exact .panic
  | .flatMapAccum _ _ _ _, _, _, _, _, _, _, _ => by simp only [Expr.evalLambda]; exact .panic
  | .leftFold _ _ _ _, _, _, _, _, _, _, _ => by simp only [Expr.evalLambda]; exact .panic
  | .findByKey _ _ _ _, _, _, _, _, _, _, _ => by simp only [Expr.evalLambda]; exact .panic
  | .flatMapList _ _ _, _, _, _, _, _, _, _ => by simp only [Expr.evalLambda]; exact .panic
  | .dup _ _, _, _, _, _, _, _, _ => by simp only [Expr.evalLambda]; exact .panic
  | .enumFromTo _ _, _, _, _, _, _, _, _ => by simp only [Expr.evalLambda]; exact .panic
  | .liftNone, _, _, _, _, _, _, _ => by simp only [Expr.evalLambda]; exact .panic
  | .liftSome _, _, _, _, _, _, _, _ => by simp only [Expr.evalLambda]; exact .panic

theorem evalValues_er : ∀ (es : List Expr) (_ : ExprsFlat es) {s : Scope δ} {s' : Scope δ'} (_ : SR s s'),
    PLe ERL (Expr.evalValues es s) (Expr.evalValues es s')
  | [], _, s, s', hs => by simp only [Expr.evalValues]; exact .ok .nil
  | e :: es, hc, s, s', hs => by
    simp only [Expr.evalValues]
    refine (eval_er e hc.1 hs).bind fun _ _ h => ?_
    exact (evalValues_er es hc.2 hs).bind fun _ _ h' => .ok (.cons h.coerce h')

theorem evalFields_er : ∀ (fs : List (String × Expr)) (_ : FieldsFlat fs) {s : Scope δ} {s' : Scope δ'} (_ : SR s s'),
    PLe EB (Expr.evalFields fs s) (Expr.evalFields fs s')
  | [], _, s, s', hs => by simp only [Expr.evalFields]; exact .ok .nil
  | (l, e) :: fs, hc, s, s', hs => by
    simp only [Expr.evalFields]
    refine (eval_er e hc.1 hs).bind fun v w h => ?_
    refine (evalFields_er fs hc.2 hs).bind fun vs ws h' => .ok ?_
    obtain ⟨h1, rfl⟩ := h
    obtain ⟨h2, rfl⟩ := h'
    exact ⟨by intro b hb; cases hb with | head => exact h1 | tail _ hb => exact h2 b hb, rfl⟩

theorem evalBranches_er : ∀ (bs : List (Pattern × Expr)) (_ : ArmsFlat bs) {s : Scope δ} {s' : Scope δ'} (_ : SR s s')
    {v w : Value} (_ : ER v w), PLe ER (Expr.evalBranches bs s v) (Expr.evalBranches bs s' w)
  | [], _, s, s', hs, v, w, h => by simp only [Expr.evalBranches]; exact .panic
  | (pat, e) :: bs, hc, s, s', hs, v, w, h => by
    simp only [Expr.evalBranches]
    have h1 := matchesPat_er hc.1 h
    obtain ⟨h4, h5⟩ | ⟨a, b', h4, h5, h6⟩ := h1.both
    · simp only [h4, h5]; exact evalBranches_er bs hc.2.2 hs h
    · simp only [h4, h5]
      exact PLe.bind (eval_er e hc.2.1 (hs.withBindings h6)) fun _ _ h => .ok h.coerce
end

end Gen
end Doodle
