import Verif.Model.WithErr

/-! Properties C17 (error accounting) and C44 (index heap). -/

namespace Doodle
namespace WithErr
variable {T U E E1 : Type}

theorem C17_new (v : T) : (new v : WithErr T E).value = v ∧ (new v : WithErr T E).errs = [] := ⟨rfl, rfl⟩

theorem C17_map (s : WithErr T E) (f : T → U) :
    (s.map f).value = f s.value ∧ (s.map f).errs = s.errs := ⟨rfl, rfl⟩

/-- A strict conversion fails exactly when the log is non-empty, and then reports the whole log. -/
theorem C17_intoStrict (s : WithErr T E) :
    (s.errs = [] → s.intoStrict = .ok s.value) ∧ (s.errs ≠ [] → s.intoStrict = .error s.errs) := by
  unfold intoStrict
  constructor
  · intro h; simp [h]
  · intro h; simp [h]

theorem C17_hasErrs (s : WithErr T E) : s.hasErrs = true ↔ s.errs ≠ [] := by
  unfold hasErrs; simp

/-- Lifting into an outer log appends in evaluation order. -/
theorem C17_lift (s : WithErr T E) (outer : List E) :
    s.lift outer = (s.value, outer ++ s.errs) := rfl

/-- Specification of a sequence of steps: run the steps in order; a fatal error stops; the value is
threaded; the batches of non-fatal errors are collected in evaluation order. -/
inductive Runs (f : U → T → EResult U E E1) : U → List T → List (List E) → U → Prop where
  | nil (u : U) : Runs f u [] [] u
  | cons {u u' u'' : U} {x : T} {xs : List T} {es : List E} {bs : List (List E)} :
      f u x = .ok ⟨u', es⟩ → Runs f u' xs bs u'' → Runs f u (x :: xs) (es :: bs) u''

/-- The first fatal error stops the run. -/
inductive Stops (f : U → T → EResult U E E1) : U → List T → E1 → Prop where
  | here {u : U} {x : T} {xs : List T} {e : E1} : f u x = .error e → Stops f u (x :: xs) e
  | later {u u' : U} {x : T} {xs : List T} {es : List E} {e : E1} :
      f u x = .ok ⟨u', es⟩ → Stops f u' xs e → Stops f u (x :: xs) e

/-- The full claim: the log of a fold is the concatenation of the batches in evaluation order. -/
def FoldLogsInOrder : Prop :=
  ∀ (f : Nat → Nat → EResult Nat Nat Unit) (u : Nat) (xs : List Nat) (bs : List (List Nat)) (u' : Nat),
    Runs f u xs bs u' → fold u xs f = .ok ⟨u', bs.flatten⟩

/-- Refuted: batches come out most recent first (`join` and `fold` append the older errors after the
newer ones). -/
theorem C17_fold_order_refuted : ¬ FoldLogsInOrder := by
  intro h
  have r : Runs (E1 := Unit) (fun u x => Except.ok ⟨u, [x]⟩) 0 [1, 2] [[1], [2]] 0 :=
    .cons rfl (.cons rfl (.nil 0))
  have h2 := h _ 0 [1, 2] [[1], [2]] 0 r
  simp [fold, foldLoop, new] at h2

/-- What holds: the log is the concatenation of one batch per step, most recent batch first. -/
theorem C17_fold_partial (f : U → T → EResult U E E1) (u u' : U) (xs : List T) (bs : List (List E))
    (h : Runs f u xs bs u') : fold u xs f = .ok ⟨u', bs.reverse.flatten⟩ := by
  have gen : ∀ (u : U) (acc : List E), Runs f u xs bs u' →
      foldLoop f ⟨u, acc⟩ xs = .ok ⟨u', bs.reverse.flatten ++ acc⟩ := by
    clear h
    induction xs generalizing bs with
    | nil => intro u acc h; cases h; rfl
    | cons x xs ih =>
      intro u acc h
      cases h with
      | cons h1 h2 =>
        simp only [foldLoop, h1]
        rw [ih _ _ _ h2]
        simp
  have := gen u [] h
  simpa [fold, new] using this

/-- In particular every reported error is in the log exactly as often as it was reported. -/
theorem C17_fold_perm (f : U → T → EResult U E E1) (u u' : U) (xs : List T) (bs : List (List E))
    (h : Runs f u xs bs u') :
    ∃ errs, fold u xs f = .ok ⟨u', errs⟩ ∧ errs.Perm bs.flatten :=
  ⟨_, C17_fold_partial f u u' xs bs h, (List.reverse_perm bs).flatten⟩

/-- A fatal error is returned as is. -/
theorem C17_fold_stop (f : U → T → EResult U E E1) (u : U) (xs : List T) (e : E1)
    (h : Stops f u xs e) : fold u xs f = .error e := by
  have gen : ∀ (acc : List E), foldLoop f ⟨u, acc⟩ xs = .error e := by
    induction h with
    | here h => intro acc; simp [foldLoop, h]
    | later h1 _ ih => intro acc; simp only [foldLoop, h1]; exact ih _
  exact gen []

/-- Every fold either runs to the end or stops at a fatal error: the two cases above are exhaustive. -/
theorem C17_fold_total (f : U → T → EResult U E E1) (u : U) (xs : List T) :
    (∃ bs u', Runs f u xs bs u') ∨ (∃ e, Stops f u xs e) := by
  induction xs generalizing u with
  | nil => exact Or.inl ⟨[], u, .nil u⟩
  | cons x xs ih =>
    cases h : f u x with
    | error e => exact Or.inr ⟨e, .here h⟩
    | ok r =>
      rcases ih r.value with ⟨bs, u', hr⟩ | ⟨e, hs⟩
      · exact Or.inl ⟨r.errs :: bs, u', .cons h hr⟩
      · exact Or.inr ⟨e, .later h hs⟩

/-- Sequencing two computations concatenates their logs (later one first), and is associative. -/
theorem C17_join_partial (s : WithErr T E) (f : T → EResult U E E1) :
    (∀ r, f s.value = .ok r → s.join f = .ok ⟨r.value, r.errs ++ s.errs⟩) ∧
    (∀ e, f s.value = .error e → s.join f = .error e) := by
  unfold join
  constructor
  · intro r h; rw [h]
  · intro e h; rw [h]

theorem C17_join_assoc {V : Type} (s : WithErr T E) (f : T → EResult U E E1) (g : U → EResult V E E1) :
    (match s.join f with | .ok r => r.join g | .error e => .error e) =
      s.join (fun x => match f x with | .ok r => r.join g | .error e => .error e) := by
  unfold join
  cases hf : f s.value with
  | error e => simp [hf]
  | ok r =>
    cases hg : g r.value with
    | error e => simp [hf, hg]
    | ok r2 => simp [hf, hg]

theorem C17_downgrade (val : EResult T E E) (d : T) :
    (∀ v, val = .ok v → downgradeErrorWith val d = v) ∧
    (∀ e, val = .error e → downgradeErrorWith val d = ⟨d, [e]⟩) := by
  constructor
  · intro v h; rw [h]; rfl
  · intro e h; rw [h]; rfl

/-- Non-vacuity: a fold of two steps with one error each. -/
example : Runs (E1 := Unit) (fun u x => Except.ok ⟨u + x, [x]⟩) 0 [3, 4] [[3], [4]] 7 :=
  .cons rfl (.cons rfl (.nil 7))

end WithErr

namespace IxHeap
variable {α : Type}

theorem mapGet_insert (m : List (Nat × List α)) (k k' : Nat) (v : List α) :
    mapGet (mapInsert m k v) k' = if k' = k then some v else mapGet m k' := by
  unfold mapGet mapInsert
  by_cases h : k' = k
  · subst h; simp
  · have h' : (k == k') = false := by simpa using fun e : k = k' => h e.symm
    rw [List.find?_cons, if_neg h]
    simp only [h', List.find?_filter]
    congr 1
    congr 1
    funext p
    by_cases c : p.1 = k'
    · subst c; simp [h]
    · have c' : (p.1 == k') = false := by simpa using c
      simp [c']

/-- Storing any list of rows and reading back: row `i` is the `i`-th stored row (empty rows
included), reading past the end panics (`none`), and the length is the number of rows. -/
theorem C44_roundtrip (rows : List (List α)) :
    (rows.foldl push new).len = rows.length ∧
      ∀ i, (rows.foldl push (new : IxHeap α)).get i = rows[i]? := by
  have gen : ∀ (rows : List (List α)) (done : List (List α)) (h : IxHeap α),
      h.len = done.length → (∀ i, (mapGet h.store i).getD [] = done[i]?.getD []) →
      (rows.foldl push h).len = (done ++ rows).length ∧
        ∀ i, (mapGet (rows.foldl push h).store i).getD [] = (done ++ rows)[i]?.getD [] := by
    intro rows
    induction rows with
    | nil => intro done h h1 h2; simpa using ⟨h1, h2⟩
    | cons r rs ih =>
      intro done h h1 h2
      rw [List.foldl_cons, List.append_cons]
      apply ih
      · unfold push
        split <;> simp [h1]
      · intro i
        have happ : ∀ i, (done ++ [r])[i]?.getD [] = if i = done.length then r else done[i]?.getD [] := by
          intro i
          rcases Nat.lt_trichotomy i done.length with c | c | c
          · rw [List.getElem?_append_left c, if_neg (by omega)]
          · subst c; simp
          · rw [if_neg (by omega), List.getElem?_eq_none (by simp; omega), List.getElem?_eq_none (by omega)]
        rw [happ]
        unfold push
        split
        · rename_i he
          have : r = [] := by simpa using he
          simp only [h2]
          split
          · rename_i e; subst e; simp [this]
          · rfl
        · simp only [mapGet_insert, h1]
          split
          · rfl
          · exact h2 i
  obtain ⟨h1, h2⟩ := gen rows [] new rfl (by intro i; rfl)
  simp only [List.nil_append] at h1 h2
  refine ⟨h1, fun i => ?_⟩
  unfold get
  rw [h1, h2]
  by_cases c : i < rows.length
  · rw [if_pos c, List.getElem?_eq_getElem c]; rfl
  · rw [if_neg c, List.getElem?_eq_none (by omega)]

example : ([[1], [], [2, 3]].foldl push (new : IxHeap Nat)).get 2 = some [2, 3] := by decide

end IxHeap
end Doodle
