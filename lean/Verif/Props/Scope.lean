import Verif.Spec.Scope

/-! C20: variable lookup is lexical. -/

namespace Doodle
variable {δ : Type}

private def pickV (name : String) : List (String × Bound δ) → Option Value
  | [] => none
  | (n, .value v) :: r => if n = name then some v else pickV name r
  | (_, _) :: r => pickV name r

private def pickW (name : String) : List (String × Bound δ) → Option ReadCtxt
  | [] => none
  | (n, .view v) :: r => if n = name then some v else pickW name r
  | (_, _) :: r => pickW name r

private def pickD (name : String) : List (String × Bound δ) → Option δ
  | [] => none
  | (n, .decoder v) :: r => if n = name then some v else pickD name r
  | (_, _) :: r => pickD name r

private theorem pickV_append (name : String) (a b : List (String × Bound δ)) :
    pickV name (a ++ b) = (pickV name a).or (pickV name b) := by
  induction a with
  | nil => rfl
  | cons x a ih =>
    obtain ⟨n, w⟩ := x
    cases w <;> simp only [List.cons_append, pickV, ih]
    split <;> rfl

private theorem pickW_append (name : String) (a b : List (String × Bound δ)) :
    pickW name (a ++ b) = (pickW name a).or (pickW name b) := by
  induction a with
  | nil => rfl
  | cons x a ih =>
    obtain ⟨n, w⟩ := x
    cases w <;> simp only [List.cons_append, pickW, ih]
    split <;> rfl

private theorem findValue_pick (name : String) (l : List (String × ViewOrValue)) :
    Scope.findValue name l = pickV name (l.map fun e => (e.1, (e.2.bound : Bound δ))) := by
  induction l with
  | nil => rfl
  | cons x l ih =>
    obtain ⟨n, w⟩ := x
    cases w <;> simp only [List.map_cons, Scope.findValue, pickV, ViewOrValue.bound, ih, ite_self]

private theorem findView_pick (name : String) (l : List (String × ViewOrValue)) :
    Scope.findView name l = pickW name (l.map fun e => (e.1, (e.2.bound : Bound δ))) := by
  induction l with
  | nil => rfl
  | cons x l ih =>
    obtain ⟨n, w⟩ := x
    cases w <;> simp only [List.map_cons, Scope.findView, pickW, ViewOrValue.bound, ih, ite_self]

private theorem pickD_entries (name : String) (l : List (String × ViewOrValue)) (r : List (String × Bound δ)) :
    pickD name ((l.map fun e => (e.1, (e.2.bound : Bound δ))) ++ r) = pickD name r := by
  induction l with
  | nil => rfl
  | cons x l ih =>
    obtain ⟨n, w⟩ := x
    cases w <;> exact ih

private theorem getValue_pick (name : String) (s : Scope δ) : s.getValue name = pickV name s.visible := by
  induction s with
  | empty => rfl
  | multi es p ih =>
    simp only [Scope.getValue, Scope.visible, pickV_append, ← findValue_pick, ← ih]
    cases Scope.findValue name es.reverse <;> rfl
  | single n v p ih => simp only [Scope.getValue, Scope.visible, pickV, ih]
  | decoder n d p ih => simp only [Scope.getValue, Scope.visible, pickV, ih]
  | view n c p ih => simp only [Scope.getValue, Scope.visible, pickV, ih]

private theorem getView_pick (name : String) (s : Scope δ) : s.getView name = pickW name s.visible := by
  induction s with
  | empty => rfl
  | multi es p ih =>
    simp only [Scope.getView, Scope.visible, pickW_append, ← findView_pick, ← ih]
    cases Scope.findView name es.reverse <;> rfl
  | single n v p ih => simp only [Scope.getView, Scope.visible, pickW, ih]
  | decoder n d p ih => simp only [Scope.getView, Scope.visible, pickW, ih]
  | view n c p ih => simp only [Scope.getView, Scope.visible, pickW, ih]

private theorem getDecoder_pick (name : String) (s : Scope δ) : s.getDecoder name = pickD name s.visible := by
  induction s with
  | empty => rfl
  | multi es p ih => simp only [Scope.getDecoder, Scope.visible, pickD_entries, ih]
  | single n v p ih => simp only [Scope.getDecoder, Scope.visible, pickD, ih]
  | decoder n d p ih => simp only [Scope.getDecoder, Scope.visible, pickD, ih]
  | view n c p ih => simp only [Scope.getDecoder, Scope.visible, pickD, ih]

private theorem pickV_some (name : String) (l : List (String × Bound δ)) (v : Value) :
    pickV name l = some v ↔
      ∃ inner outer, l = inner ++ (name, .value v) :: outer ∧ ∀ w, (name, Bound.value w) ∉ inner := by
  constructor
  · induction l with
    | nil => intro h; cases h
    | cons x l ih =>
      obtain ⟨n, w⟩ := x
      intro h
      cases w with
      | value u =>
        unfold pickV at h
        split at h
        · next e => cases h; exact ⟨[], l, by rw [e]; rfl, fun w => by simp⟩
        · next e =>
          obtain ⟨i, o, h1, h2⟩ := ih h
          refine ⟨(n, .value u) :: i, o, by rw [h1]; rfl, fun w hw => ?_⟩
          rcases List.mem_cons.mp hw with g | g
          · cases g; exact e rfl
          · exact h2 w g
      | view u =>
        obtain ⟨i, o, h1, h2⟩ := ih h
        refine ⟨(n, .view u) :: i, o, by rw [h1]; rfl, fun w hw => ?_⟩
        rcases List.mem_cons.mp hw with g | g
        · cases g
        · exact h2 w g
      | decoder u =>
        obtain ⟨i, o, h1, h2⟩ := ih h
        refine ⟨(n, .decoder u) :: i, o, by rw [h1]; rfl, fun w hw => ?_⟩
        rcases List.mem_cons.mp hw with g | g
        · cases g
        · exact h2 w g
  · rintro ⟨i, o, h1, h2⟩
    subst h1
    induction i with
    | nil => simp [pickV]
    | cons x i ih =>
      obtain ⟨n, w⟩ := x
      have ih' := ih fun w hw => h2 w (List.mem_cons_of_mem _ hw)
      cases w with
      | value u =>
        show (if n = name then some u else _) = _
        rw [if_neg ?_]
        · exact ih'
        · intro e; subst e; exact h2 u (List.mem_cons_self ..)
      | view u => exact ih'
      | decoder u => exact ih'

private theorem pickW_some (name : String) (l : List (String × Bound δ)) (v : ReadCtxt) :
    pickW name l = some v ↔
      ∃ inner outer, l = inner ++ (name, .view v) :: outer ∧ ∀ w, (name, Bound.view w) ∉ inner := by
  constructor
  · induction l with
    | nil => intro h; cases h
    | cons x l ih =>
      obtain ⟨n, w⟩ := x
      intro h
      cases w with
      | view u =>
        unfold pickW at h
        split at h
        · next e => cases h; exact ⟨[], l, by rw [e]; rfl, fun w => by simp⟩
        · next e =>
          obtain ⟨i, o, h1, h2⟩ := ih h
          refine ⟨(n, .view u) :: i, o, by rw [h1]; rfl, fun w hw => ?_⟩
          rcases List.mem_cons.mp hw with g | g
          · cases g; exact e rfl
          · exact h2 w g
      | value u =>
        obtain ⟨i, o, h1, h2⟩ := ih h
        refine ⟨(n, .value u) :: i, o, by rw [h1]; rfl, fun w hw => ?_⟩
        rcases List.mem_cons.mp hw with g | g
        · cases g
        · exact h2 w g
      | decoder u =>
        obtain ⟨i, o, h1, h2⟩ := ih h
        refine ⟨(n, .decoder u) :: i, o, by rw [h1]; rfl, fun w hw => ?_⟩
        rcases List.mem_cons.mp hw with g | g
        · cases g
        · exact h2 w g
  · rintro ⟨i, o, h1, h2⟩
    subst h1
    induction i with
    | nil => simp [pickW]
    | cons x i ih =>
      obtain ⟨n, w⟩ := x
      have ih' := ih fun w hw => h2 w (List.mem_cons_of_mem _ hw)
      cases w with
      | view u =>
        show (if n = name then some u else _) = _
        rw [if_neg ?_]
        · exact ih'
        · intro e; subst e; exact h2 u (List.mem_cons_self ..)
      | value u => exact ih'
      | decoder u => exact ih'

private theorem pickD_some (name : String) (l : List (String × Bound δ)) (v : δ) :
    pickD name l = some v ↔
      ∃ inner outer, l = inner ++ (name, .decoder v) :: outer ∧ ∀ w, (name, Bound.decoder w) ∉ inner := by
  constructor
  · induction l with
    | nil => intro h; cases h
    | cons x l ih =>
      obtain ⟨n, w⟩ := x
      intro h
      cases w with
      | decoder u =>
        unfold pickD at h
        split at h
        · next e => cases h; exact ⟨[], l, by rw [e]; rfl, fun w => by simp⟩
        · next e =>
          obtain ⟨i, o, h1, h2⟩ := ih h
          refine ⟨(n, .decoder u) :: i, o, by rw [h1]; rfl, fun w hw => ?_⟩
          rcases List.mem_cons.mp hw with g | g
          · cases g; exact e rfl
          · exact h2 w g
      | value u =>
        obtain ⟨i, o, h1, h2⟩ := ih h
        refine ⟨(n, .value u) :: i, o, by rw [h1]; rfl, fun w hw => ?_⟩
        rcases List.mem_cons.mp hw with g | g
        · cases g
        · exact h2 w g
      | view u =>
        obtain ⟨i, o, h1, h2⟩ := ih h
        refine ⟨(n, .view u) :: i, o, by rw [h1]; rfl, fun w hw => ?_⟩
        rcases List.mem_cons.mp hw with g | g
        · cases g
        · exact h2 w g
  · rintro ⟨i, o, h1, h2⟩
    subst h1
    induction i with
    | nil => simp [pickD]
    | cons x i ih =>
      obtain ⟨n, w⟩ := x
      have ih' := ih fun w hw => h2 w (List.mem_cons_of_mem _ hw)
      cases w with
      | decoder u =>
        show (if n = name then some u else _) = _
        rw [if_neg ?_]
        · exact ih'
        · intro e; subst e; exact h2 u (List.mem_cons_self ..)
      | value u => exact ih'
      | view u => exact ih'

private theorem pickV_none (name : String) (l : List (String × Bound δ)) :
    pickV name l = none ↔ ∀ w, (name, Bound.value w) ∉ l := by
  constructor
  · intro h w hw
    obtain ⟨a, b, e⟩ := List.append_of_mem hw
    subst e
    rw [pickV_append] at h
    cases ha : pickV name a with
    | some x => rw [ha] at h; cases h
    | none => rw [ha] at h; simp [pickV] at h
  · intro h
    cases e : pickV name l with
    | none => rfl
    | some v =>
      obtain ⟨i, o, h1, _⟩ := (pickV_some name l v).mp e
      exact absurd (by rw [h1]; simp) (h v)

/-- A name evaluates to `v` exactly if `v` is its innermost value binding, whatever the frames between. -/
theorem C20_value (s : Scope δ) (name : String) (v : Value) :
    s.getValue name = some v ↔ InnermostValue s name v := by
  rw [getValue_pick, pickV_some]; rfl

/-- Lookup of a value fails exactly if no enclosing frame binds the name to a value. -/
theorem C20_value_none (s : Scope δ) (name : String) :
    s.getValue name = none ↔ ∀ v, (name, Bound.value v) ∉ s.visible := by
  rw [getValue_pick, pickV_none]

/-- Views are looked up lexically in their own namespace. -/
theorem C20_view (s : Scope δ) (name : String) (c : ReadCtxt) :
    s.getView name = some c ↔ InnermostView s name c := by
  rw [getView_pick, pickW_some]; rfl

/-- Dynamic decoders are looked up lexically in their own namespace. -/
theorem C20_decoder (s : Scope δ) (name : String) (d : δ) :
    s.getDecoder name = some d ↔ InnermostDecoder s name d := by
  rw [getDecoder_pick, pickD_some]; rfl

/-- A variable expression returns the innermost value binding, and panics only if there is none. -/
theorem C20_eval_var (s : Scope δ) (name : String) :
    (∀ v, (Expr.var name).eval s = .ok v ↔ InnermostValue s name v) ∧
    ((Expr.var name).eval s = .panic ↔ ∀ v, (name, Bound.value v) ∉ s.visible) := by
  rw [Expr.eval]
  constructor
  · intro v
    rw [← C20_value]
    cases s.getValue name <;> simp [Panicky.unwrap]
  · rw [← C20_value_none]
    cases s.getValue name <;> simp [Panicky.unwrap]

/-- Bindings added by a child frame never change what other names mean, and the parent scope is the
same after the child frame is gone. -/
theorem C20_frame (s : Scope δ) (bs : List (String × Value)) (name : String)
    (h : name ∉ bs.map (·.1)) : (s.withBindings bs).getValue name = s.getValue name := by
  have : Scope.findValue name (bs.map fun b => (b.1, ViewOrValue.value b.2)).reverse = none := by
    rw [← List.map_reverse]
    have h' : name ∉ bs.reverse.map (·.1) := by simpa using h
    generalize bs.reverse = l at h'
    induction l with
    | nil => rfl
    | cons x l ih =>
      simp only [List.map_cons, List.mem_cons, not_or] at h'
      simp only [List.map_cons, Scope.findValue]
      rw [if_neg (fun e => h'.1 e.symm)]
      exact ih h'.2
  rw [Scope.withBindings, Scope.getValue, this]

/-- non-vacuity: an inner match frame shadows an outer single frame, a view frame of the same name in
between does not hide it -/
example : InnermostValue (δ := Unit)
    (.view "x" ⟨[], 0⟩ (.single "x" (.bool true) (.multi [("x", .value (.bool false))] .empty)))
    "x" (.bool true) := by
  rw [← C20_value]; rfl

example : InnermostValue (δ := Unit)
    (.multi [("x", .value (.bool false)), ("x", .value (.bool true))] .empty) "x" (.bool true) := by
  rw [← C20_value]; rfl

end Doodle
