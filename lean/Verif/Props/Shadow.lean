import Verif.Spec.Free
import Verif.Props.Pattern
import Verif.Props.Scope

/-! C21: the shadowing test. -/

namespace Doodle
variable {δ δ' : Type}

private theorem findValue_isSome (x : String) : ∀ (bs : List (String × Value)), x ∈ bs.map (·.1) →
    (Scope.findValue x (bs.map fun b => (b.1, ViewOrValue.value b.2))).isSome = true
  | [], h => by simp at h
  | (n, v) :: bs, h => by
    simp only [List.map_cons, Scope.findValue]
    split
    · rfl
    · next hn =>
      simp only [List.map_cons, List.mem_cons] at h
      exact findValue_isSome x bs (h.resolve_left fun e => hn e.symm)

theorem withBindings_congr (s : Scope δ) (s' : Scope δ') (bs : List (String × Value)) (x : String)
    (h : x ∉ bs.map (·.1) → s.getValue x = s'.getValue x) :
    (s.withBindings bs).getValue x = (s'.withBindings bs).getValue x := by
  by_cases hx : x ∈ bs.map (·.1)
  · simp only [Scope.withBindings, Scope.getValue]
    have := findValue_isSome x bs.reverse (by simpa using hx)
    rw [← List.map_reverse]
    cases hf : Scope.findValue x (List.map (fun b => (b.fst, ViewOrValue.value b.snd)) bs.reverse) with
    | none => rw [hf] at this; cases this
    | some v => rfl
  · rw [C20_frame s bs x hx, C20_frame s' bs x hx, h hx]

private theorem num_eval_congr (f g : String → Num.Out Num.StrictValue) (e : Num.Expr)
    (h : ∀ x ∈ e.vars, f x = g x) : e.eval f = e.eval g := by
  induction e with
  | const c => rfl
  | binOp op o l r ihl ihr =>
    simp only [Num.Expr.eval]
    rw [ihl fun x hx => h x (by simp [Num.Expr.vars, hx]), ihr fun x hx => h x (by simp [Num.Expr.vars, hx])]
  | unaryOp op o e ih => simp only [Num.Expr.eval]; rw [ih h]
  | cast op o e ih => simp only [Num.Expr.eval]; rw [ih h]
  | numVar x => simp only [Num.Expr.eval]; rw [h x (by simp [Num.Expr.vars])]

mutual
/-- An expression's value depends only on its free variables. -/
theorem eval_congr (e : Expr) (s : Scope δ) (s' : Scope δ')
    (h : ∀ x, e.free x → s.getValue x = s'.getValue x) : e.eval s = e.eval s' := by
  match e with
  | .var n => simp only [Expr.eval]; rw [h n rfl]
  | .bool _ => simp only [Expr.eval]
  | .lit _ _ => simp only [Expr.eval]
  | .liftNone => simp only [Expr.eval]
  | .numeric n =>
    simp only [Expr.eval]
    rw [num_eval_congr s.numLookup s'.numLookup n]
    intro x hx
    simp only [Scope.numLookup]
    rw [h x hx]
  | .tuple es => simp only [Expr.eval]; rw [evalValues_congr es s s' h]
  | .seq es => simp only [Expr.eval]; rw [evalValues_congr es s s' h]
  | .record fs => simp only [Expr.eval]; rw [evalFields_congr fs s s' h]
  | .tupleProj e _ => simp only [Expr.eval]; rw [eval_congr e s s' h]
  | .recordProj e _ => simp only [Expr.eval]; rw [eval_congr e s s' h]
  | .variant _ e => simp only [Expr.eval]; rw [eval_congr e s s' h]
  | .unary _ e => simp only [Expr.eval]; rw [eval_congr e s s' h]
  | .asNum _ e => simp only [Expr.eval]; rw [eval_congr e s s' h]
  | .asChar e => simp only [Expr.eval]; rw [eval_congr e s s' h]
  | .fromBytes _ _ e => simp only [Expr.eval]; rw [eval_congr e s s' h]
  | .seqLength e => simp only [Expr.eval]; rw [eval_congr e s s' h]
  | .liftSome e => simp only [Expr.eval]; rw [eval_congr e s s' h]
  | .lambda _ _ => simp only [Expr.eval]
  | .match_ e arms =>
    simp only [Expr.eval]
    rw [eval_congr e s s' fun x hx => h x (Or.inl hx)]
    simp only [evalBranches_congr arms s s' fun x hx => h x (Or.inr hx)]
  | .destructure e p b =>
    simp only [Expr.eval]
    rw [eval_congr e s s' fun x hx => h x (Or.inl hx)]
    congr 1
    funext v
    cases hm : v.matchesPat p with
    | none => rfl
    | some bs =>
      simp only []
      rw [eval_congr b (s.withBindings bs) (s'.withBindings bs) fun x hx =>
        withBindings_congr s s' bs x fun hn => h x (Or.inr ⟨by rw [← C24_binders v p bs hm]; exact hn, hx⟩)]
  | .intRel _ a b =>
    simp only [Expr.eval]
    rw [eval_congr a s s' fun x hx => h x (Or.inl hx), eval_congr b s s' fun x hx => h x (Or.inr hx)]
  | .arith _ a b =>
    simp only [Expr.eval]
    rw [eval_congr a s s' fun x hx => h x (Or.inl hx), eval_congr b s s' fun x hx => h x (Or.inr hx)]
  | .seqIx a b =>
    simp only [Expr.eval]
    rw [eval_congr a s s' fun x hx => h x (Or.inl hx), eval_congr b s s' fun x hx => h x (Or.inr hx)]
  | .enumFromTo a b =>
    simp only [Expr.eval]
    rw [eval_congr a s s' fun x hx => h x (Or.inl hx), eval_congr b s s' fun x hx => h x (Or.inr hx)]
  | .dup a b =>
    simp only [Expr.eval]
    rw [eval_congr a s s' fun x hx => h x (Or.inl hx), eval_congr b s s' fun x hx => h x (Or.inr hx)]
  | .append a b =>
    simp only [Expr.eval]
    rw [eval_congr a s s' fun x hx => h x (Or.inl hx), eval_congr b s s' fun x hx => h x (Or.inr hx)]
  | .subSeq a b c =>
    simp only [Expr.eval]
    rw [eval_congr a s s' fun x hx => h x (Or.inl hx), eval_congr b s s' fun x hx => h x (Or.inr (Or.inl hx)),
      eval_congr c s s' fun x hx => h x (Or.inr (Or.inr hx))]
  | .subSeqInflate a b c =>
    simp only [Expr.eval]
    rw [eval_congr a s s' fun x hx => h x (Or.inl hx), eval_congr b s s' fun x hx => h x (Or.inr (Or.inl hx)),
      eval_congr c s s' fun x hx => h x (Or.inr (Or.inr hx))]
  | .flatMap f b =>
    simp only [Expr.eval]
    rw [eval_congr b s s' fun x hx => h x (Or.inr hx),
      funext (evalLambda_congr f s s' fun x hx => h x (Or.inl hx))]
  | .flatMapList f _ b =>
    simp only [Expr.eval]
    rw [eval_congr b s s' fun x hx => h x (Or.inr hx),
      funext (evalLambda_congr f s s' fun x hx => h x (Or.inl hx))]
  | .flatMapAccum f b _ c =>
    simp only [Expr.eval]
    rw [eval_congr b s s' fun x hx => h x (Or.inr (Or.inl hx)),
      eval_congr c s s' fun x hx => h x (Or.inr (Or.inr hx)),
      funext (evalLambda_congr f s s' fun x hx => h x (Or.inl hx))]
  | .leftFold f b _ c =>
    simp only [Expr.eval]
    rw [eval_congr b s s' fun x hx => h x (Or.inr (Or.inl hx)),
      eval_congr c s s' fun x hx => h x (Or.inr (Or.inr hx)),
      funext (evalLambda_congr f s s' fun x hx => h x (Or.inl hx))]
  | .findByKey _ f b c =>
    simp only [Expr.eval]
    rw [eval_congr b s s' fun x hx => h x (Or.inr (Or.inl hx)),
      eval_congr c s s' fun x hx => h x (Or.inr (Or.inr hx)),
      funext (evalLambda_congr f s s' fun x hx => h x (Or.inl hx))]

theorem evalLambda_congr (e : Expr) (s : Scope δ) (s' : Scope δ')
    (h : ∀ x, e.free x → s.getValue x = s'.getValue x) (v : Value) : e.evalLambda s v = e.evalLambda s' v := by
  match e with
  | .lambda n b =>
    simp only [Expr.evalLambda]
    rw [eval_congr b (.single n v s) (.single n v s') fun x hx => by
      simp only [Scope.getValue]
      split
      · rfl
      · next hn => exact h x ⟨hn, hx⟩]
  | .var _ | .bool _ | .lit _ _ | .liftNone | .numeric _ | .tuple _ | .seq _ | .record _ | .tupleProj _ _
  | .recordProj _ _ | .variant _ _ | .unary _ _ | .asNum _ _ | .asChar _ | .fromBytes _ _ _ | .seqLength _
  | .liftSome _ | .match_ _ _ | .destructure _ _ _ | .intRel _ _ _ | .arith _ _ _ | .seqIx _ _
  | .enumFromTo _ _ | .dup _ _ | .append _ _ | .subSeq _ _ _ | .subSeqInflate _ _ _ | .flatMap _ _
  | .flatMapList _ _ _ | .flatMapAccum _ _ _ _ | .leftFold _ _ _ _ | .findByKey _ _ _ _ => simp only [Expr.evalLambda]

theorem evalValues_congr (es : List Expr) (s : Scope δ) (s' : Scope δ')
    (h : ∀ x, Expr.freeAny x es → s.getValue x = s'.getValue x) : Expr.evalValues es s = Expr.evalValues es s' := by
  match es with
  | [] => simp only [Expr.evalValues]
  | e :: es =>
    simp only [Expr.evalValues]
    rw [eval_congr e s s' fun x hx => h x (Or.inl hx), evalValues_congr es s s' fun x hx => h x (Or.inr hx)]

theorem evalFields_congr (fs : List (String × Expr)) (s : Scope δ) (s' : Scope δ')
    (h : ∀ x, Expr.freeFields x fs → s.getValue x = s'.getValue x) :
    Expr.evalFields fs s = Expr.evalFields fs s' := by
  match fs with
  | [] => simp only [Expr.evalFields]
  | (l, e) :: fs =>
    simp only [Expr.evalFields]
    rw [eval_congr e s s' fun x hx => h x (Or.inl hx), evalFields_congr fs s s' fun x hx => h x (Or.inr hx)]

theorem evalBranches_congr (arms : List (Pattern × Expr)) (s : Scope δ) (s' : Scope δ')
    (h : ∀ x, Expr.freeArms x arms → s.getValue x = s'.getValue x) (v : Value) :
    Expr.evalBranches arms s v = Expr.evalBranches arms s' v := by
  match arms with
  | [] => simp only [Expr.evalBranches]
  | (p, e) :: rest =>
    simp only [Expr.evalBranches]
    cases hm : v.matchesPat p with
    | none => exact evalBranches_congr rest s s' (fun x hx => h x (Or.inr hx)) v
    | some bs =>
      simp only []
      rw [eval_congr e (s.withBindings bs) (s'.withBindings bs) fun x hx =>
        withBindings_congr s s' bs x fun hn => h x (Or.inl ⟨by rw [← C24_binders v p bs hm]; exact hn, hx⟩)]
end

private theorem not_shadows {p : Pattern} {x : String} : (!p.shadows x) = true ↔ x ∉ p.binders := by
  rw [← C24_shadows p x]; simp

mutual
private theorem shadowed_iff (x : String) (e : Expr) (h : e.noField x) : e.isShadowedBy x = true ↔ e.free x := by
  match e with
  | .var n => simp [Expr.isShadowedBy, Expr.free]
  | .bool _ => simp [Expr.isShadowedBy, Expr.free]
  | .lit _ _ => simp [Expr.isShadowedBy, Expr.free]
  | .liftNone => simp [Expr.isShadowedBy, Expr.free]
  | .numeric n => simp [Expr.isShadowedBy, Expr.free]
  | .tuple es => simp only [Expr.isShadowedBy, Expr.free]; exact anyShadowed_iff x es h
  | .seq es => simp only [Expr.isShadowedBy, Expr.free]; exact anyShadowed_iff x es h
  | .record fs => simp only [Expr.isShadowedBy, Expr.free]; exact fieldsShadowed_iff x fs h
  | .tupleProj e _ => simp only [Expr.isShadowedBy, Expr.free]; exact shadowed_iff x e h
  | .recordProj e _ => simp only [Expr.isShadowedBy, Expr.free]; exact shadowed_iff x e h
  | .variant _ e => simp only [Expr.isShadowedBy, Expr.free]; exact shadowed_iff x e h
  | .unary _ e => simp only [Expr.isShadowedBy, Expr.free]; exact shadowed_iff x e h
  | .asNum _ e => simp only [Expr.isShadowedBy, Expr.free]; exact shadowed_iff x e h
  | .asChar e => simp only [Expr.isShadowedBy, Expr.free]; exact shadowed_iff x e h
  | .fromBytes _ _ e => simp only [Expr.isShadowedBy, Expr.free]; exact shadowed_iff x e h
  | .seqLength e => simp only [Expr.isShadowedBy, Expr.free]; exact shadowed_iff x e h
  | .liftSome e => simp only [Expr.isShadowedBy, Expr.free]; exact shadowed_iff x e h
  | .lambda n b =>
    have ih := shadowed_iff x b h
    simp only [Expr.isShadowedBy, Expr.free]
    split
    · next e => simp [e]
    · next e => rw [ih]; simp [e]
  | .match_ e arms =>
    simp only [Expr.isShadowedBy, Expr.free, Bool.or_eq_true]
    rw [shadowed_iff x e h.1, armsShadowed_iff x arms h.2]
  | .destructure e p b =>
    simp only [Expr.isShadowedBy, Expr.free, Bool.or_eq_true, Bool.and_eq_true]
    rw [shadowed_iff x e h.1, shadowed_iff x b h.2, not_shadows]
  | .intRel _ a b | .arith _ a b | .seqIx a b | .enumFromTo a b | .dup a b | .append a b | .flatMap a b
  | .flatMapList a _ b =>
    simp only [Expr.isShadowedBy, Expr.free, Bool.or_eq_true]
    rw [shadowed_iff x a h.1, shadowed_iff x b h.2]
  | .subSeq a b c | .subSeqInflate a b c | .flatMapAccum a b _ c | .leftFold a b _ c | .findByKey _ a b c =>
    simp only [Expr.isShadowedBy, Expr.free, Bool.or_eq_true]
    rw [shadowed_iff x a h.1, shadowed_iff x b h.2.1, shadowed_iff x c h.2.2, or_assoc]

private theorem anyShadowed_iff (x : String) (es : List Expr) (h : Expr.noFieldAll x es) :
    Expr.anyShadowed x es = true ↔ Expr.freeAny x es := by
  match es with
  | [] => simp [Expr.anyShadowed, Expr.freeAny]
  | e :: es =>
    simp only [Expr.anyShadowed, Expr.freeAny, Bool.or_eq_true]
    rw [shadowed_iff x e h.1, anyShadowed_iff x es h.2]

private theorem fieldsShadowed_iff (x : String) (fs : List (String × Expr)) (h : Expr.noFieldFields x fs) :
    Expr.fieldsShadowed x fs = true ↔ Expr.freeFields x fs := by
  match fs with
  | [] => simp [Expr.fieldsShadowed, Expr.freeFields]
  | (l, e) :: fs =>
    have h1 := shadowed_iff x e h.2.1
    have h2 := fieldsShadowed_iff x fs h.2.2
    simp only [Expr.fieldsShadowed, Expr.freeFields]
    rw [if_neg h.1]
    split
    · next he => simp [h1.mp he]
    · next he => rw [h2]; exact ⟨Or.inr, fun g => g.resolve_left fun hf => he (h1.mpr hf)⟩

private theorem armsShadowed_iff (x : String) (arms : List (Pattern × Expr)) (h : Expr.noFieldArms x arms) :
    Expr.armsShadowed x arms = true ↔ Expr.freeArms x arms := by
  match arms with
  | [] => simp [Expr.armsShadowed, Expr.freeArms]
  | (p, e) :: rest =>
    simp only [Expr.armsShadowed, Expr.freeArms, Bool.or_eq_true, Bool.and_eq_true]
    rw [shadowed_iff x e h.1, armsShadowed_iff x rest h.2, not_shadows]
end

/-- If an expression without a record field of that name is reported as not affected by a name, its
value (or panic) is the same in any two scopes that differ only in that name.  Missing from the full
property: expressions containing a record with a field of that name (`C21_record_refuted`). -/
theorem C21_unaffected_partial (e : Expr) (name : String) (hf : e.noField name)
    (hs : e.isShadowedBy name = false) (s : Scope δ) (s' : Scope δ')
    (h : ∀ x, x ≠ name → s.getValue x = s'.getValue x) : e.eval s = e.eval s' := by
  apply eval_congr
  intro x hx
  apply h
  intro hn
  subst hn
  rw [(shadowed_iff x e hf).mpr hx] at hs
  cases hs

/-- In particular for rebinding the name in an inner frame. -/
theorem C21_rebind_partial (e : Expr) (name : String) (hf : e.noField name)
    (hs : e.isShadowedBy name = false) (s : Scope δ) (v : Value) : e.eval (.single name v s) = e.eval s := by
  apply C21_unaffected_partial e name hf hs
  intro x hx
  simp only [Scope.getValue]
  rw [if_neg hx.symm]

/-- The test is exact on expressions without such a record field: it reports precisely the names that
occur free under the evaluator's scoping rules. -/
theorem C21_exact_partial (e : Expr) (name : String) (hf : e.noField name) :
    e.isShadowedBy name = true ↔ e.free name := shadowed_iff name e hf

/-- The full claim fails: in `{x: true, y: x}` the search stops at the field called `x`, although the
field `y` reads the outer variable `x`. -/
theorem C21_record_refuted :
    ¬ ∀ (e : Expr) (name : String), e.isShadowedBy name = false →
      ∀ (s : Scope Unit) (v : Value), e.eval (.single name v s) = e.eval s := by
  intro h
  have h := h (.record [("x", .bool true), ("y", .var "x")]) "x"
    (by simp [Expr.isShadowedBy, Expr.fieldsShadowed]) (.single "x" (.bool false) .empty) (.bool true)
  simp [Expr.eval, Expr.evalFields, Scope.getValue, Panicky.unwrap, bind, Panicky.bind] at h

/-- non-vacuity: a lambda that rebinds the name, next to a record without a field of that name -/
example : (Expr.flatMap (.lambda "x" (.var "x")) (.record [("y", .var "z")])).noField "x" ∧
    (Expr.flatMap (.lambda "x" (.var "x")) (.record [("y", .var "z")])).isShadowedBy "x" = false := by
  simp [Expr.noField, Expr.noFieldFields, Expr.isShadowedBy, Expr.fieldsShadowed]

end Doodle
