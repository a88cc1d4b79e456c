import Verif.Spec.Unify
import Verif.Lemmas.UnifyMerge
import Verif.Lemmas.UnifyProj

/-! A decision procedure for "this assignment solves the state", for the examples and counterexamples. -/

namespace Doodle

mutual
/-- equality of types -/
def ValueType.same : ValueType → ValueType → Bool
  | .any, .any => true
  | .empty, .empty => true
  | .viewObj, .viewObj => true
  | .phantom a, .phantom b => a.same b
  | .base a, .base b => decide (a = b)
  | .numericHole, .numericHole => true
  | .signed a, .signed b => decide (a = b)
  | .tuple a, .tuple b => ValueType.sameList a b
  | .record a, .record b => ValueType.sameFields a b
  | .union a, .union b => ValueType.sameFields a b
  | .seq a, .seq b => a.same b
  | .option a, .option b => a.same b
  | _, _ => false
/-- the same for lists -/
def ValueType.sameList : List ValueType → List ValueType → Bool
  | [], [] => true
  | a :: as, b :: bs => a.same b && ValueType.sameList as bs
  | _, _ => false
/-- the same for fields -/
def ValueType.sameFields : List (String × ValueType) → List (String × ValueType) → Bool
  | [], [] => true
  | (l, a) :: as, (k, b) :: bs => decide (l = k) && a.same b && ValueType.sameFields as bs
  | _, _ => false
end

mutual
theorem ValueType.eq_of_same : ∀ (a b : ValueType), a.same b = true → a = b
  | .any, b, h => by cases b <;> simp_all [ValueType.same]
  | .empty, b, h => by cases b <;> simp_all [ValueType.same]
  | .viewObj, b, h => by cases b <;> simp_all [ValueType.same]
  | .numericHole, b, h => by cases b <;> simp_all [ValueType.same]
  | .phantom a, b, h => by
    cases b <;> simp_all [ValueType.same]
    exact ValueType.eq_of_same _ _ h
  | .base a, b, h => by cases b <;> simp_all [ValueType.same]
  | .signed a, b, h => by cases b <;> simp_all [ValueType.same]
  | .tuple a, b, h => by
    cases b <;> simp_all [ValueType.same]
    exact ValueType.eq_of_sameList _ _ h
  | .record a, b, h => by
    cases b <;> simp_all [ValueType.same]
    exact ValueType.eq_of_sameFields _ _ h
  | .union a, b, h => by
    cases b <;> simp_all [ValueType.same]
    exact ValueType.eq_of_sameFields _ _ h
  | .seq a, b, h => by
    cases b <;> simp_all [ValueType.same]
    exact ValueType.eq_of_same _ _ h
  | .option a, b, h => by
    cases b <;> simp_all [ValueType.same]
    exact ValueType.eq_of_same _ _ h
theorem ValueType.eq_of_sameList : ∀ (a b : List ValueType), ValueType.sameList a b = true → a = b
  | [], b, h => by cases b <;> simp_all [ValueType.sameList]
  | a :: as, b, h => by
    cases b <;> simp_all [ValueType.sameList]
    exact ⟨ValueType.eq_of_same _ _ h.1, ValueType.eq_of_sameList _ _ h.2⟩
theorem ValueType.eq_of_sameFields : ∀ (a b : List (String × ValueType)), ValueType.sameFields a b = true → a = b
  | [], b, h => by cases b <;> simp_all [ValueType.sameFields]
  | (l, a) :: as, b, h => by
    cases b with
    | nil => simp_all [ValueType.sameFields]
    | cons p bs =>
      obtain ⟨k, b⟩ := p
      simp only [ValueType.sameFields, Bool.and_eq_true, decide_eq_true_eq] at h
      obtain ⟨⟨rfl, h1⟩, h2⟩ := h
      rw [ValueType.eq_of_same _ _ h1, ValueType.eq_of_sameFields _ _ h2]
end

namespace Tc

/-- the assignment that a list stands for -/
def assign (ts : List ValueType) : Assignment := fun v => ts.getD v .any

/-- an optional type is the given one -/
def sameOpt (x : Option ValueType) (t : ValueType) : Bool :=
  match x with
  | some u => u.same t
  | none => false

theorem eq_of_sameOpt {x : Option ValueType} {t : ValueType} (h : sameOpt x t = true) : x = some t := by
  cases x with
  | none => cases h
  | some u => rw [ValueType.eq_of_same u t h]

/-- a decision procedure for `UConstraint.Holds` -/
def UConstraint.holdsB (σ : Assignment) : UConstraint → ValueType → Bool
  | .equiv t, T => T.same (t.inst σ)
  | .elem bs, .base b => match bs.contains b with
    | .ok true => true
    | _ => false
  | .elem _, _ => false
  | .numTree is, .base (.num w) => is.contains ⟨false, w⟩
  | .numTree is, .signed w => is.contains ⟨true, w⟩
  | .numTree _, _ => false
  | .proj (.tupleWith m), .tuple Us => m.all fun e => sameOpt Us[e.1]? (σ e.2)
  | .proj (.recordWith m), .record Fs => m.all fun e => sameOpt (TMap.get e.1 Fs) (σ e.2)
  | .proj (.seqOf v), T => T.same (.seq (σ v))
  | .proj (.optOf v), T => T.same (.option (σ v))
  | .proj _, _ => false

theorem holds_of_holdsB {σ : Assignment} {c : UConstraint} {T : ValueType} (h : c.holdsB σ T = true) : c.Holds σ T := by
  unfold UConstraint.holdsB at h
  split at h
  · exact .inr (.inr (ValueType.eq_of_same _ _ h))
  · rename_i bs b
    split at h
    · rename_i hc; exact ⟨b, rfl, hc⟩
    · cases h
  · cases h
  · rename_i is w; exact ⟨⟨false, w⟩, rfl, h⟩
  · rename_i is w; exact ⟨⟨true, w⟩, rfl, h⟩
  · cases h
  · refine ⟨_, rfl, fun i v hv => ?_⟩
    exact eq_of_sameOpt (List.all_eq_true.mp h (i, v) (nget_mem hv))
  · refine ⟨_, rfl, fun l v hv => ?_⟩
    exact eq_of_sameOpt (List.all_eq_true.mp h (l, v) (tget_mem hv))
  · exact ValueType.eq_of_same _ _ h
  · exact ValueType.eq_of_same _ _ h
  · cases h

/-- a decision procedure for `UConstraints.Holds` -/
def UConstraints.holdsB (σ : Assignment) (store : Nat → Option VarMap) : UConstraints → ValueType → Bool
  | .indefinite, _ => true
  | .invariant c, T => c.holdsB σ T
  | .variant id, .union bs => match store id with
    | some m => m.all fun e => sameOpt (TMap.get e.1 bs) (e.2.inst σ)
    | none => false
  | .variant _, _ => false

theorem all_of_holdsB {σ : Assignment} {store : Nat → Option VarMap} {c : UConstraints} {T : ValueType}
    (h : c.holdsB σ store T = true) : c.Holds σ store T := by
  unfold UConstraints.holdsB at h
  split at h
  · trivial
  · exact holds_of_holdsB h
  · rename_i id bs
    split at h
    · rename_i m hm
      refine ⟨m, hm, fun l t ht => ⟨bs, _, rfl, ?_, rfl⟩⟩
      exact eq_of_sameOpt (List.all_eq_true.mp h (l, t) (tget_mem ht))
    · cases h
  · cases h

/-- a decision procedure for `Solves` -/
def solvesB (ts : List ValueType) (s : Checker) : Bool :=
  decide (s.constraints.length ≤ s.aliases.length) && (List.range s.aliases.length).all fun v =>
    (assign ts v).same (assign ts (Aliases.root s.aliases v)) && (s.known v).holdsB (assign ts) s.store (assign ts v)

theorem solves_of_solvesB {ts : List ValueType} {s : Checker} (h : solvesB ts s = true) : Solves (assign ts) s := by
  unfold solvesB at h
  simp only [Bool.and_eq_true, decide_eq_true_eq, List.all_eq_true, List.mem_range] at h
  obtain ⟨hl, h⟩ := h
  have out : ∀ v, s.aliases.length ≤ v → Aliases.root s.aliases v = v := by
    intro v hv
    unfold Aliases.root
    rw [List.getElem?_eq_none hv]
  have root : ∀ v, assign ts v = assign ts (Aliases.root s.aliases v) := by
    intro v
    by_cases hv : v < s.aliases.length
    · exact ValueType.eq_of_same _ _ (h v hv).1
    · rw [out v (by omega)]
  refine ⟨fun v w e => ?_, fun v => ?_⟩
  · rw [root v, root w]; exact congrArg _ e
  · by_cases hv : v < s.aliases.length
    · exact all_of_holdsB (h v hv).2
    · unfold Checker.known
      rw [out v (by omega), List.getD_eq_getElem?_getD, List.getElem?_eq_none (by omega)]
      trivial

/-! A candidate for a solution, read off the state. -/

mutual
/-- the type recorded for a variable, to a given depth; an unconstrained variable gets the type `d` -/
def readVar (s : Checker) (d : ValueType) : Nat → Nat → ValueType
  | 0, _ => d
  | k + 1, v =>
    match s.known v with
    | .indefinite => d
    | .invariant (.equiv t) => readType s d k t
    | .invariant (.elem (.single b)) => .base b
    | .invariant (.elem (.u us)) =>
      .base (.num (([.b8, .b16, .b32, .b64].find? fun w => match UintSet.contains us (.num w) with
        | .ok true => true
        | _ => false).getD .b32))
    | .invariant (.numTree is) => .ofMachine ((((List.finRange 8).map primAt).find? is.contains).getD ⟨false, .b32⟩)
    | .invariant (.proj (.seqOf w)) => .seq (readVar s d k w)
    | .invariant (.proj (.optOf w)) => .option (readVar s d k w)
    | .invariant (.proj (.tupleWith m)) =>
      .tuple ((List.range (m.length)).map fun i => ((NMap.get i m).map (readVar s d k)).getD d)
    | .invariant (.proj (.recordWith m)) => .record (m.map fun e => (e.1, readVar s d k e.2))
    | .variant id => .union (((s.store id).getD []).map fun e => (e.1, readType s d k e.2))
/-- the same for a type -/
def readType (s : Checker) (d : ValueType) : Nat → UType → ValueType
  | 0, _ => d
  | k + 1, t =>
    match t with
    | .hole => .any
    | .empty => .empty
    | .viewObj => .viewObj
    | .phantom t => .phantom (readType s d k t)
    | .var v => readVar s d k v
    | .base b => .base b
    | .int r => .ofMachine r
    | .tuple ts => .tuple (ts.map (readType s d k))
    | .record fs => .record (fs.map fun e => (e.1, readType s d k e.2))
    | .seq t _ => .seq (readType s d k t)
    | .option t => .option (readType s d k t)
end

/-- the candidate -/
def candidate (s : Checker) (d : ValueType := .base .bool) : List ValueType :=
  (List.range s.aliases.length).map (readVar s d 20)

end Tc
end Doodle
