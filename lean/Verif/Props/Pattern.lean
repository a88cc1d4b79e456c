import Verif.Spec.Pattern
import Verif.Model.Expr

/-! C24: pattern matching is structural and first-match. -/

namespace Doodle

private theorem lists_iff {α : Type} (s : SeqKind α) (l : List α) : s.Lists l ↔ l = s.iter := by
  cases s with
  | strict vs => exact Iff.rfl
  | dup n v =>
    show (l.length = n ∧ ∀ x ∈ l, x = v) ↔ l = List.replicate n v
    rw [List.eq_replicate_iff]

private theorem iter_len {α : Type} (s : SeqKind α) : s.iter.length = s.len := by
  cases s <;> simp [SeqKind.iter, SeqKind.len]

private theorem contains_iff (b : Bounds) (n : Nat) :
    b.contains n = true ↔ b.min ≤ n ∧ ∀ m, b.max = some m → n ≤ m := by
  unfold Bounds.contains
  cases h : b.max <;> simp

private theorem fallsWithin_iff (b : Bounds) (c : Num.TypedConst) :
    c.fallsWithin b = true ↔ (b.min : Int) ≤ c.val ∧ ∀ m, b.max = some m → c.val ≤ (m : Int) := by
  unfold Num.TypedConst.fallsWithin
  split
  · constructor
    · intro h; cases h
    · rintro ⟨h, _⟩; omega
  · cases h : b.max with
    | none => simp; omega
    | some m => simp; omega

private theorem flat_iff (v : Value) (p : Pattern) :
    (v.matchesFlat p = true → Describes p v []) := by
  intro h
  cases p with
  | bool b =>
    cases v <;> simp [Value.matchesFlat] at h
    subst h; exact .bool _
  | lit w n =>
    cases v <;> simp [Value.matchesFlat, Num.TypedConst.patMatches] at h
    · next k m =>
      obtain ⟨h1, h2⟩ := h
      subst h1
      have : n = m := Fin.ext h2
      subst this; exact .lit _ _
    · next c =>
      obtain ⟨z, r⟩ := c
      obtain ⟨h1, h2⟩ := h
      simp only at h1 h2
      subst h1; exact .litNumeric _ _ _ h2
  | int b =>
    cases v <;> simp only [Value.matchesFlat] at h <;> try cases h
    · rw [contains_iff] at h; exact .int _ _ _ h.1 h.2
    · rw [fallsWithin_iff] at h; exact .intNumeric _ _ h.1 h.2
  | zConst z =>
    simp only [Value.matchesFlat] at h
    split at h
    · next n hn => simp at h; subst h; exact .zConst _ _ hn
    · cases h
  | zRange r =>
    simp only [Value.matchesFlat] at h
    split at h
    · next n hn => simp [Num.Bounds.contains] at h; exact .zRange _ _ _ hn h.1 h.2
    · cases h
  | char c =>
    cases v <;> simp [Value.matchesFlat] at h
    subst h; exact .char _
  | _ => simp [Value.matchesFlat] at h

mutual
private theorem inner_sound (p : Pattern) (v : Value) (acc r : List (String × Value))
    (h : p.matchesInner v acc = some r) : ∃ bs, Describes p v bs ∧ r = acc ++ bs := by
  have fallback : (if v.matchesFlat p then some acc else none) = some r →
      ∃ bs, Describes p v bs ∧ r = acc ++ bs := by
    intro h
    split at h
    · next hf => cases h; exact ⟨[], flat_iff v p hf, by simp⟩
    · cases h
  match p, v, h with
  | .binding name, v, h =>
    simp only [Pattern.matchesInner] at h; cases h; exact ⟨_, .binding _ _, rfl⟩
  | .wildcard, v, h =>
    simp only [Pattern.matchesInner] at h; cases h; exact ⟨[], .wildcard _, by simp⟩
  | .tuple ps, v, h =>
    cases v with
    | tuple vs =>
      simp only [Pattern.matchesInner] at h
      split at h
      · next hl =>
        obtain ⟨bs, h1, h2⟩ := all_sound ps vs acc r hl h
        exact ⟨bs, .tuple _ _ _ h1, h2⟩
      · cases h
    | _ => simp only [Pattern.matchesInner] at h; exact fallback h
  | .seq ps, v, h =>
    cases v with
    | seq vs =>
      simp only [Pattern.matchesInner] at h
      split at h
      · next hl =>
        obtain ⟨bs, h1, h2⟩ := all_sound ps vs.iter acc r (by rw [iter_len]; exact hl) h
        exact ⟨bs, .seq _ _ _ _ ((lists_iff _ _).mpr rfl) h1, h2⟩
      · cases h
    | _ => simp only [Pattern.matchesInner] at h; exact fallback h
  | .variant l p, v, h =>
    cases v with
    | variant l' v =>
      simp only [Pattern.matchesInner] at h
      split at h
      · next hl =>
        subst hl
        obtain ⟨bs, h1, h2⟩ := inner_sound p v acc r h
        exact ⟨bs, .variant _ _ _ _ h1, h2⟩
      · cases h
    | _ => simp only [Pattern.matchesInner] at h; exact fallback h
  | .optNone, v, h =>
    cases v with
    | optNone => simp only [Pattern.matchesInner] at h; cases h; exact ⟨[], .optNone, by simp⟩
    | _ => simp only [Pattern.matchesInner] at h; exact fallback h
  | .optSome p, v, h =>
    cases v with
    | optSome v =>
      simp only [Pattern.matchesInner] at h
      obtain ⟨bs, h1, h2⟩ := inner_sound p v acc r h
      exact ⟨bs, .optSome _ _ _ h1, h2⟩
    | _ => simp only [Pattern.matchesInner] at h; exact fallback h
  | .bool b, v, h => simp only [Pattern.matchesInner] at h; exact fallback h
  | .lit w n, v, h => simp only [Pattern.matchesInner] at h; exact fallback h
  | .int b, v, h => simp only [Pattern.matchesInner] at h; exact fallback h
  | .zConst b, v, h => simp only [Pattern.matchesInner] at h; exact fallback h
  | .zRange b, v, h => simp only [Pattern.matchesInner] at h; exact fallback h
  | .char b, v, h => simp only [Pattern.matchesInner] at h; exact fallback h

private theorem all_sound (ps : List Pattern) (vs : List Value) (acc r : List (String × Value))
    (hl : ps.length = vs.length) (h : Pattern.matchesAll ps vs acc = some r) :
    ∃ bs, DescribesAll ps vs bs ∧ r = acc ++ bs := by
  match ps, vs, hl with
  | [], [], _ => simp only [Pattern.matchesAll] at h; cases h; exact ⟨[], .nil, by simp⟩
  | p :: ps, v :: vs, hl =>
    simp only [Pattern.matchesAll] at h
    split at h
    · next acc' ha =>
      obtain ⟨b, h1, h2⟩ := inner_sound p v acc acc' ha
      obtain ⟨bs, h3, h4⟩ := all_sound ps vs acc' r (by simpa using hl) h
      exact ⟨b ++ bs, .cons _ _ _ _ _ _ h1 h3, by rw [h4, h2, List.append_assoc]⟩
    · cases h
end

mutual
private theorem inner_complete {p : Pattern} {v : Value} {bs : List (String × Value)}
    (d : Describes p v bs) (acc : List (String × Value)) : p.matchesInner v acc = some (acc ++ bs) := by
  match d with
  | .binding n v => simp only [Pattern.matchesInner]
  | .wildcard v => simp [Pattern.matchesInner]
  | .bool b => simp [Pattern.matchesInner, Value.matchesFlat]
  | .char c => simp [Pattern.matchesInner, Value.matchesFlat]
  | .lit w n => simp [Pattern.matchesInner, Value.matchesFlat]
  | .litNumeric w n z h => simp [Pattern.matchesInner, Value.matchesFlat, Num.TypedConst.patMatches, h]
  | .int b k n h1 h2 =>
    simp only [Pattern.matchesInner, Value.matchesFlat, (contains_iff b n.val).mpr ⟨h1, h2⟩, if_true, List.append_nil]
  | .intNumeric b c h1 h2 =>
    simp only [Pattern.matchesInner, Value.matchesFlat, (fallsWithin_iff b c).mpr ⟨h1, h2⟩, if_true, List.append_nil]
  | .zConst z v h => simp [Pattern.matchesInner, Value.matchesFlat, h]
  | .zRange r v z h h1 h2 => simp [Pattern.matchesInner, Value.matchesFlat, h, Num.Bounds.contains, h1, h2]
  | .tuple ps vs bs h =>
    have ⟨hl, ha⟩ := all_complete h acc
    simp only [Pattern.matchesInner, if_pos hl, ha]
  | .seq ps s l bs hl h =>
    have e := (lists_iff _ _).mp hl
    have ⟨hl, ha⟩ := all_complete h acc
    rw [e, iter_len] at hl
    rw [e] at ha
    simp only [Pattern.matchesInner, if_pos hl, ha]
  | .variant label p v bs h =>
    simp only [Pattern.matchesInner, if_true]; exact inner_complete h acc
  | .optNone => simp [Pattern.matchesInner]
  | .optSome p v bs h => simp only [Pattern.matchesInner]; exact inner_complete h acc

private theorem all_complete {ps : List Pattern} {vs : List Value} {bs : List (String × Value)}
    (d : DescribesAll ps vs bs) (acc : List (String × Value)) :
    ps.length = vs.length ∧ Pattern.matchesAll ps vs acc = some (acc ++ bs) := by
  match d with
  | .nil => simp [Pattern.matchesAll]
  | .cons p ps v vs b bs h hs =>
    have h1 := inner_complete h acc
    have ⟨hl, h2⟩ := all_complete hs (acc ++ b)
    refine ⟨by simp [hl], ?_⟩
    simp only [Pattern.matchesAll, h1, h2, List.append_assoc]
end

private theorem unwrapped_coerce (v : Value) : Unwrapped v v.coerceNominal := by
  match v with
  | .mapped o w => simp only [Value.coerceNominal]; exact .step _ _ _ (.mapped _ _) (unwrapped_coerce w)
  | .branch o w => simp only [Value.coerceNominal]; exact .step _ _ _ (.branch _ _) (unwrapped_coerce w)
  | .permitOk w => simp only [Value.coerceNominal]; exact .step _ _ _ (.permitOk _) (unwrapped_coerce w)
  | .permitErr w => simp only [Value.coerceNominal]; exact .step _ _ _ (.permitErr _) (unwrapped_coerce w)
  | .permitErrNone | .bool _ | .num _ _ | .char _ | .numeric _ | .view _ | .phantom | .enumFromTo _ _
  | .optNone | .optSome _ | .tuple _ | .record _ | .variant _ _ | .seq _ =>
    simp only [Value.coerceNominal]; exact .done _ (fun w h => by cases h)

private theorem unwrapped_unique {v a b : Value} (h : Unwrapped v a) : Unwrapped v b → a = b := by
  induction h with
  | done v hv =>
    intro h2
    cases h2 with
    | done _ => rfl
    | step _ w _ hw _ => exact absurd hw (hv w)
  | step v w u hw _ ih =>
    intro h2
    cases h2 with
    | done _ hv => exact absurd hw (hv w)
    | step _ w' _ hw' h' =>
      have : w = w' := by cases hw <;> cases hw' <;> rfl
      subst this; exact ih h'

/-- Matching succeeds with bindings `bs` exactly if the value, its outer wrappers removed, has the
pattern's shape with those bindings.  Missing from the full property: wrappers inside the value are not
looked through (`C24_nested_wrappers_refuted`). -/
theorem C24_matches_partial (v : Value) (p : Pattern) (bs : List (String × Value)) :
    v.matchesPat p = some bs ↔ ∃ w, Unwrapped v w ∧ Describes p w bs := by
  unfold Value.matchesPat
  constructor
  · intro h
    obtain ⟨b, h1, h2⟩ := inner_sound _ _ _ _ h
    rw [List.nil_append] at h2
    subst h2
    exact ⟨_, unwrapped_coerce v, h1⟩
  · rintro ⟨w, h1, h2⟩
    rw [unwrapped_unique h1 (unwrapped_coerce v)] at h2
    exact inner_complete h2 []

/-- The value's shape decides the bindings: there is at most one way to match. -/
theorem C24_deterministic {p : Pattern} {v : Value} {bs bs' : List (String × Value)}
    (h : Describes p v bs) (h' : Describes p v bs') : bs = bs' := by
  have a := inner_complete h []
  have b := inner_complete h' []
  rw [a] at b
  simpa using b

mutual
private theorem binders_of {p : Pattern} {v : Value} {bs : List (String × Value)}
    (d : Describes p v bs) : bs.map (·.1) = p.binders := by
  match d with
  | .binding n v => rfl
  | .wildcard v | .bool b | .char c | .lit w n | .litNumeric w n z h | .int b k n h1 h2
  | .intNumeric b c h1 h2 | .zConst z v h | .zRange r v z h h1 h2 | .optNone => rfl
  | .tuple ps vs bs h => simp only [Pattern.binders]; exact bindersAll_of h
  | .seq ps s l bs hl h => simp only [Pattern.binders]; exact bindersAll_of h
  | .variant label p v bs h => simp only [Pattern.binders]; exact binders_of h
  | .optSome p v bs h => simp only [Pattern.binders]; exact binders_of h

private theorem bindersAll_of {ps : List Pattern} {vs : List Value} {bs : List (String × Value)}
    (d : DescribesAll ps vs bs) : bs.map (·.1) = Pattern.bindersAll ps := by
  match d with
  | .nil => rfl
  | .cons p ps v vs b bs h hs =>
    rw [List.map_append, binders_of h, bindersAll_of hs, Pattern.bindersAll]
end

/-- The bindings are exactly the pattern's binders, left to right, whatever the value. -/
theorem C24_binders (v : Value) (p : Pattern) (bs : List (String × Value))
    (h : v.matchesPat p = some bs) : bs.map (·.1) = p.binders := by
  obtain ⟨w, _, h2⟩ := (C24_matches_partial v p bs).mp h
  exact binders_of h2

private theorem shadows_iff (name : String) : ∀ p : Pattern, p.shadows name = true ↔ name ∈ p.binders := by
  intro p
  induction p using Pattern.rec (motive_2 := fun ps => Pattern.anyShadows name ps = true ↔ name ∈ Pattern.bindersAll ps) with
  | binding n =>
    simp only [Pattern.shadows, Pattern.binders, beq_iff_eq, List.mem_singleton]
    exact ⟨Eq.symm, Eq.symm⟩
  | tuple ps ih => simpa [Pattern.shadows, Pattern.binders] using ih
  | seq ps ih => simpa [Pattern.shadows, Pattern.binders] using ih
  | variant l p ih => simpa [Pattern.shadows, Pattern.binders] using ih
  | optSome p ih => simpa [Pattern.shadows, Pattern.binders] using ih
  | nil => simp [Pattern.anyShadows, Pattern.bindersAll]
  | cons p ps ih ih' => simp [Pattern.anyShadows, Pattern.bindersAll, ih, ih']
  | _ => simp [Pattern.shadows, Pattern.binders]

/-- `Pattern::shadows` reports exactly the pattern's binders. -/
theorem C24_shadows (p : Pattern) (name : String) : p.shadows name = true ↔ name ∈ p.binders :=
  shadows_iff name p

/-- A match expression evaluates the first branch whose pattern matches, in the scope extended by that
match's bindings, and panics if no pattern matches. -/
theorem C24_first_match {δ : Type} (branches : List (Pattern × Expr)) (s : Scope δ) (v : Value) (r : Value) :
    Expr.evalBranches branches s v = .ok r ↔
      ∃ before p e after bs w, branches = before ++ (p, e) :: after ∧
        (∀ q ∈ before, ∀ u c, Unwrapped v u → ¬ Describes q.1 u c) ∧
        (∃ u, Unwrapped v u ∧ Describes p u bs) ∧
        e.eval (s.withBindings bs) = .ok w ∧ r = w.coerceMapped := by
  induction branches with
  | nil =>
    simp only [Expr.evalBranches]
    constructor
    · intro h; cases h
    · rintro ⟨_, _, _, _, _, _, h, _⟩; simp at h
  | cons b rest ih =>
    obtain ⟨p, e⟩ := b
    simp only [Expr.evalBranches]
    cases hm : v.matchesPat p with
    | some bs =>
      have hd := (C24_matches_partial v p bs).mp hm
      simp only [Panicky.bind_eq_ok]
      constructor
      · rintro ⟨w, h1, h2⟩
        cases h2
        exact ⟨[], p, e, rest, bs, w, rfl, by simp, hd, h1, rfl⟩
      · rintro ⟨before, p', e', after, bs', w, h1, h2, h3, h4, h5⟩
        cases before with
        | nil =>
          simp only [List.nil_append, List.cons.injEq, Prod.mk.injEq] at h1
          obtain ⟨⟨e1, e2⟩, _⟩ := h1
          subst e1; subst e2
          rw [← (C24_matches_partial v p bs').mpr h3 |>.symm.trans hm |> Option.some.inj] at *
          exact ⟨w, h4, by rw [h5]⟩
        | cons q before =>
          simp only [List.cons_append, List.cons.injEq] at h1
          obtain ⟨u, hu, hd⟩ := hd
          exact absurd hd (by have := h2 q (List.mem_cons_self ..) u bs hu; rw [← h1.1] at this; exact this)
    | none =>
      simp only []
      rw [ih]
      have hn : ∀ u c, Unwrapped v u → ¬ Describes p u c := by
        intro u c h1 h2
        rw [(C24_matches_partial v p c).mpr ⟨u, h1, h2⟩] at hm
        cases hm
      constructor
      · rintro ⟨before, p', e', after, bs', w, h1, h2, h3, h4, h5⟩
        refine ⟨(p, e) :: before, p', e', after, bs', w, by rw [h1]; rfl, ?_, h3, h4, h5⟩
        intro q hq
        rcases List.mem_cons.mp hq with g | g
        · subst g; exact hn
        · exact h2 q g
      · rintro ⟨before, p', e', after, bs', w, h1, h2, h3, h4, h5⟩
        cases before with
        | nil =>
          simp only [List.nil_append, List.cons.injEq, Prod.mk.injEq] at h1
          obtain ⟨⟨e1, e2⟩, _⟩ := h1
          subst e1
          obtain ⟨u, hu, hd⟩ := h3
          exact absurd hd (hn u _ hu)
        | cons q before =>
          simp only [List.cons_append, List.cons.injEq] at h1
          exact ⟨before, p', e', after, bs', w, h1.2, fun q' hq' => h2 q' (List.mem_cons_of_mem _ hq'), h3, h4, h5⟩

/-- Wrappers below the top level are not looked through: a pair whose first component was parsed by an
alternation does not match the pattern for it, although the component inside the wrapper does. -/
theorem C24_nested_wrappers_refuted :
    ¬ ∀ (p : Pattern) (v : Value), DescribesDeep p v → ∃ bs, v.matchesPat p = some bs := by
  intro h
  obtain ⟨bs, h⟩ := h (.tuple [.bool true]) (.tuple [.branch 0 (.bool true)])
    (.tuple _ _ (.cons _ _ _ _ (.unwrap _ _ _ (.branch _ _) (.flat _ _ (.bool _))) .nil))
  simp [Value.matchesPat, Value.coerceNominal, Pattern.matchesInner, Pattern.matchesAll, Value.matchesFlat] at h

/-- On a value without inner wrappers the code does look as deep as the property asks. -/
private theorem plain_iter {s : SeqKind Value} (h : (Value.seq s).plain = true) : Value.plainAll s.iter = true := by
  cases s with
  | strict vs => simpa [Value.plain, SeqKind.iter] using h
  | dup n v =>
    simp only [Value.plain] at h
    show Value.plainAll (List.replicate n v) = true
    induction n with
    | zero => rfl
    | succ n ih => simp [List.replicate_succ, Value.plainAll, h, ih]

mutual
private theorem deep_plain {p : Pattern} {v : Value} (d : DescribesDeep p v) (h : v.plain = true) :
    ∃ bs, Describes p v bs := by
  match d with
  | .unwrap p v w hw _ => cases hw <;> simp [Value.plain] at h
  | .flat p v d => exact ⟨_, d⟩
  | .binding n v => exact ⟨_, .binding _ _⟩
  | .tuple ps vs d =>
    obtain ⟨bs, hb⟩ := deep_plainAll d (by simpa [Value.plain] using h)
    exact ⟨_, .tuple _ _ _ hb⟩
  | .seq ps s l hl d =>
    have e := (lists_iff _ _).mp hl
    obtain ⟨bs, hb⟩ := deep_plainAll d (by rw [e]; exact plain_iter h)
    exact ⟨_, .seq _ _ _ _ hl hb⟩
  | .variant label p v d =>
    obtain ⟨bs, hb⟩ := deep_plain d (by simpa [Value.plain] using h)
    exact ⟨_, .variant _ _ _ _ hb⟩
  | .optSome p v d =>
    obtain ⟨bs, hb⟩ := deep_plain d (by simpa [Value.plain] using h)
    exact ⟨_, .optSome _ _ _ hb⟩
private theorem deep_plainAll {ps : List Pattern} {vs : List Value} (d : DescribesDeepAll ps vs)
    (h : Value.plainAll vs = true) : ∃ bs, DescribesAll ps vs bs := by
  match d with
  | .nil => exact ⟨_, .nil⟩
  | .cons p ps v vs d ds =>
    simp only [Value.plainAll, Bool.and_eq_true] at h
    obtain ⟨b, hb⟩ := deep_plain d h.1
    obtain ⟨bs, hbs⟩ := deep_plainAll ds h.2
    exact ⟨_, .cons _ _ _ _ _ _ hb hbs⟩
end

/-- If the value under the outer wrappers contains no further wrapper, looking through wrappers at every
level (the full property) and what the code does coincide. -/
theorem C24_plain_partial (p : Pattern) (v w : Value) (hu : Unwrapped v w) (hp : w.plain = true) :
    DescribesDeep p w ↔ ∃ bs, v.matchesPat p = some bs := by
  constructor
  · intro d
    obtain ⟨bs, hb⟩ := deep_plain d hp
    exact ⟨bs, (C24_matches_partial v p bs).mpr ⟨w, hu, hb⟩⟩
  · rintro ⟨bs, hb⟩
    obtain ⟨w', h1, h2⟩ := (C24_matches_partial v p bs).mp hb
    rw [← unwrapped_unique hu h1] at h2
    exact deep_of h2
where
  deep_of {p : Pattern} {v : Value} {bs : List (String × Value)} (d : Describes p v bs) : DescribesDeep p v := by
    exact (Describes.rec (motive_1 := fun p v _ _ => DescribesDeep p v)
      (motive_2 := fun ps vs _ _ => DescribesDeepAll ps vs)
      (fun n v => .binding n v) (fun v => .flat _ _ (.wildcard v)) (fun b => .flat _ _ (.bool b))
      (fun c => .flat _ _ (.char c)) (fun w n => .flat _ _ (.lit w n))
      (fun w n z h => .flat _ _ (.litNumeric w n z h)) (fun b k n h1 h2 => .flat _ _ (.int b k n h1 h2))
      (fun b c h1 h2 => .flat _ _ (.intNumeric b c h1 h2)) (fun z v h => .flat _ _ (.zConst z v h))
      (fun r v z h h1 h2 => .flat _ _ (.zRange r v z h h1 h2))
      (fun _ _ _ _ ih => .tuple _ _ ih) (fun _ _ _ _ hl _ ih => .seq _ _ _ hl ih)
      (fun _ _ _ _ _ ih => .variant _ _ _ ih) (.flat _ _ .optNone) (fun _ _ _ _ ih => .optSome _ _ ih)
      .nil (fun _ _ _ _ _ _ _ _ ih ihs => .cons _ _ _ _ ih ihs) d)

/-- non-vacuity: a wrapped pair matched with two bindings in order -/
example : (Value.branch 1 (.tuple [.bool true, .optSome (.char 'x')])).matchesPat
    (.tuple [.binding "a", .optSome (.binding "b")]) = some [("a", .bool true), ("b", .char 'x')] := by
  simp [Value.matchesPat, Value.coerceNominal, Pattern.matchesInner, Pattern.matchesAll]

/-- the first of two matching branches is taken -/
example : Expr.evalBranches (δ := Unit) [(.bool false, .lit .b8 0), (.wildcard, .lit .b8 1), (.bool true, .lit .b8 2)]
    .empty (.branch 0 (.bool true)) = .ok (.num (.fixed .b8) 1) := by
  rfl

example : Value.plain (.tuple [.bool true, .optSome (.char 'x')]) = true := by
  simp [Value.plain, Value.plainAll]

end Doodle
