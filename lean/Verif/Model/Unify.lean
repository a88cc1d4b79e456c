import Verif.Model.Outcome
import Verif.Model.BaseSet
import Verif.Model.Inference

/-!
Model of the unification core of the type checker (/repo/src/typecheck.rs).

A meta-variable (`UVar`) and the identifier of a map of variants (`VMId`) are natural numbers.  A
`HashMap` is a key-ordered list of its entries, and the order in which the code walks over one is given by
the parameter `Orders`, about which nothing is assumed except that it lists the same elements.  The payload
of the errors and their traces are left out.  Recursion is bounded by `fuel`.
-/

namespace Doodle
namespace Tc

open Num (MachineRep BitWidth)

/-! ### equality of candidate sets -/

instance instDecEqRanks {n : Nat} : DecidableEq (Ranks n) := fun f g =>
  decidable_of_iff (∀ i, f i = g i) ⟨funext, fun h i => by rw [h]⟩

deriving instance DecidableEq for BaseSet
deriving instance DecidableEq for IntSet

/-! ### types over meta-variables -/

/-- `enum SeqBorrowHint` (src/valuetype.rs:107-120). -/
inductive SeqHint where
  | constructed | readArray | bufferView
deriving DecidableEq, Repr

/-- the derived order of `SeqBorrowHint` (src/valuetype.rs:106-120) -/
def SeqHint.rank : SeqHint → Nat
  | .constructed => 0
  | .readArray => 1
  | .bufferView => 2

/-- `Ord::min` on `SeqBorrowHint` (src/valuetype.rs:106-120). -/
def SeqHint.min (a b : SeqHint) : SeqHint := if a.rank ≤ b.rank then a else b

/-- `enum UType` (src/typecheck.rs:329-347); `Int` holds a `PrimInt`, here its machine representation. -/
inductive UType where
  | hole
  | empty
  | viewObj
  | phantom (t : UType)
  | var (v : Nat)
  | base (b : BaseType)
  | int (r : MachineRep)
  | tuple (ts : List UType)
  | record (fs : List (String × UType))
  | seq (t : UType) (h : SeqHint)
  | option (t : UType)
deriving Repr

mutual
/-- the derived `PartialEq` of `UType` (src/typecheck.rs:328-347) -/
def UType.beq : UType → UType → Bool
  | .hole, .hole => true
  | .empty, .empty => true
  | .viewObj, .viewObj => true
  | .phantom a, .phantom b => UType.beq a b
  | .var a, .var b => decide (a = b)
  | .base a, .base b => decide (a = b)
  | .int a, .int b => decide (a = b)
  | .tuple a, .tuple b => UType.beqList a b
  | .record a, .record b => UType.beqFields a b
  | .seq a h, .seq b k => UType.beq a b && decide (h = k)
  | .option a, .option b => UType.beq a b
  | _, _ => false
/-- equality of the types in a tuple -/
def UType.beqList : List UType → List UType → Bool
  | [], [] => true
  | a :: as, b :: bs => UType.beq a b && UType.beqList as bs
  | _, _ => false
/-- equality of the fields of a record -/
def UType.beqFields : List (String × UType) → List (String × UType) → Bool
  | [], [] => true
  | (l, a) :: as, (k, b) :: bs => decide (l = k) && (UType.beq a b && UType.beqFields as bs)
  | _, _ => false
end

mutual
theorem UType.eq_of_beq : ∀ (a b : UType), UType.beq a b = true → a = b
  | .hole, b, h => by cases b <;> simp_all [UType.beq]
  | .empty, b, h => by cases b <;> simp_all [UType.beq]
  | .viewObj, b, h => by cases b <;> simp_all [UType.beq]
  | .phantom a, b, h => by
    cases b <;> simp_all [UType.beq]
    exact UType.eq_of_beq _ _ h
  | .var a, b, h => by cases b <;> simp_all [UType.beq]
  | .base a, b, h => by cases b <;> simp_all [UType.beq]
  | .int a, b, h => by cases b <;> simp_all [UType.beq]
  | .tuple a, b, h => by
    cases b <;> simp_all [UType.beq]
    exact UType.eq_of_beqList _ _ h
  | .record a, b, h => by
    cases b <;> simp_all [UType.beq]
    exact UType.eq_of_beqFields _ _ h
  | .seq a k, b, h => by
    cases b <;> simp_all [UType.beq]
    exact UType.eq_of_beq _ _ h.1
  | .option a, b, h => by
    cases b <;> simp_all [UType.beq]
    exact UType.eq_of_beq _ _ h
theorem UType.eq_of_beqList : ∀ (a b : List UType), UType.beqList a b = true → a = b
  | [], b, h => by cases b <;> simp_all [UType.beqList]
  | a :: as, b, h => by
    cases b <;> simp_all [UType.beqList]
    exact ⟨UType.eq_of_beq _ _ h.1, UType.eq_of_beqList _ _ h.2⟩
theorem UType.eq_of_beqFields : ∀ (a b : List (String × UType)), UType.beqFields a b = true → a = b
  | [], b, h => by cases b <;> simp_all [UType.beqFields]
  | (l, a) :: as, b, h => by
    cases b with
    | nil => simp_all [UType.beqFields]
    | cons p bs =>
      obtain ⟨k, b⟩ := p
      simp only [UType.beqFields, Bool.and_eq_true, decide_eq_true_eq] at h
      obtain ⟨rfl, h1, h2⟩ := h
      rw [UType.eq_of_beq _ _ h1, UType.eq_of_beqFields _ _ h2]
end

mutual
theorem UType.beq_self : ∀ (a : UType), UType.beq a a = true
  | .hole => rfl
  | .empty => rfl
  | .viewObj => rfl
  | .phantom a => by simp [UType.beq, UType.beq_self a]
  | .var a => by simp [UType.beq]
  | .base a => by simp [UType.beq]
  | .int a => by simp [UType.beq]
  | .tuple a => by simp [UType.beq, UType.beqList_self a]
  | .record a => by simp [UType.beq, UType.beqFields_self a]
  | .seq a k => by simp [UType.beq, UType.beq_self a]
  | .option a => by simp [UType.beq, UType.beq_self a]
theorem UType.beqList_self : ∀ (a : List UType), UType.beqList a a = true
  | [] => rfl
  | a :: as => by simp [UType.beqList, UType.beq_self a, UType.beqList_self as]
theorem UType.beqFields_self : ∀ (a : List (String × UType)), UType.beqFields a a = true
  | [] => rfl
  | (l, a) :: as => by simp [UType.beqFields, UType.beq_self a, UType.beqFields_self as]
end

instance instDecEqUType : DecidableEq UType := fun a b =>
  if h : UType.beq a b = true then .isTrue (UType.eq_of_beq a b h)
  else .isFalse fun e => h (e ▸ UType.beq_self a)

/-- `UType::seq` and its siblings (src/typecheck.rs:349-381) -/
def UType.seqOf (t : UType) : UType := .seq t .constructed

/-! ### constraints -/

namespace NMap

/-- `BTreeMap::get` on a map from indices -/
def get (k : Nat) : List (Nat × Nat) → Option Nat
  | [] => none
  | (k', x) :: m => if k = k' then some x else get k m

/-- `BTreeMap::insert` on a map from indices -/
def insert (k x : Nat) : List (Nat × Nat) → List (Nat × Nat)
  | [] => [(k, x)]
  | (k', x') :: m =>
    if k < k' then (k, x) :: (k', x') :: m
    else if k = k' then (k, x) :: m
    else (k', x') :: insert k x m

end NMap

/-- `enum ProjShape` (src/typecheck.rs:659-665). -/
inductive ProjShape where
  | tupleWith (m : List (Nat × Nat))
  | recordWith (m : List (String × Nat))
  | seqOf (v : Nat)
  | optOf (v : Nat)
deriving DecidableEq, Repr

/-- `enum Constraint` (src/typecheck.rs:617-626). -/
inductive UConstraint where
  | equiv (t : UType)
  | elem (bs : BaseSet)
  | proj (p : ProjShape)
  | numTree (is : IntSet)
deriving DecidableEq

/-- `enum Constraints` (src/typecheck.rs:600-608). -/
inductive UConstraints where
  | indefinite
  | variant (id : Nat)
  | invariant (c : UConstraint)
deriving DecidableEq

/-- `Constraint::is_vacuous` (src/typecheck.rs:634-639). -/
def UConstraint.isVacuous : UConstraint → Bool
  | .equiv .hole => true
  | .equiv .empty => true
  | _ => false

/-- `BaseSet::to_constraint` (src/typecheck/base_set.rs:78-86). -/
def BaseSet.toConstraint : BaseSet → UConstraint
  | .single b => .equiv (.base b)
  | .u s =>
    match Ranks.asSingleton s with
    | some i => .equiv (.base (.num (uintAt i)))
    | none => .elem (.u s)

/-- `IntSet::to_constraint` (src/typecheck/base_set.rs:167-175). -/
def IntSet.toConstraint : IntSet → UConstraint
  | .single p => .equiv (.int p)
  | .z s =>
    match Ranks.asSingleton s with
    | some i => .equiv (.int (primAt i))
    | none => .numTree (.z s)

/-- a `VarMap` (src/typecheck.rs:535-539): the variants seen so far and the types of their contents -/
abbrev VarMap := List (String × UType)

/-- something that was asked of a variable: a constraint, or the type of one variant -/
inductive Cond where
  | con (c : UConstraint)
  | ent (l : String) (t : UType)

/-- A request that was completed, for the history below: the variable, the type it was to be equal to (if that
was the request) and what it was made to satisfy. -/
structure Req where
  v : Nat
  light : Option UType
  conds : List Cond

/-- the type in a request that a variable has a given type -/
def UConstraint.light : UConstraint → Option UType
  | .equiv t => some t
  | _ => none

/-- `struct TypeChecker` (src/typecheck.rs:699-712); `store` and `nextId` are its `VarMapMap`
(src/typecheck.rs:541-547); `level_vars` is passed separately (Model/TypeCheckFormat.lean).  `history` is not in
the code: it is a history variable, a list of the completed requests that nothing reads, for use in proofs. -/
structure Checker where
  constraints : List UConstraints
  aliases : Aliases
  store : Nat → Option VarMap
  nextId : Nat
  history : List Req

/-- `TypeChecker::new` (src/typecheck.rs:717-725). -/
def Checker.new : Checker := ⟨[], [], fun _ => none, 0, []⟩

/-- the orders in which the entries of hash tables are visited -/
structure Orders where
  nats : List Nat → List Nat
  labels : List String → List String
  entries : VarMap → VarMap

/-- A computation of the type checker: it reads and updates the state, and may fail, panic or run out of
fuel.  (`TCResult`, src/typecheck/error.rs; the state after a failure is not used by any caller.) -/
def TcM (α : Type) : Type := Checker → Outcome Unit (α × Checker)

namespace TcM
variable {α β : Type}

/-- sequencing (`?`) -/
def bind (x : TcM α) (f : α → TcM β) : TcM β := fun st =>
  match x st with
  | .ok (a, st') => f a st'
  | .err e => .err e
  | .panic => .panic
  | .fuel => .fuel

instance : Monad TcM where
  pure a := fun st => .ok (a, st)
  bind := bind

/-- an `Err` -/
def fail : TcM α := fun _ => .err ()
/-- a panic -/
def panic : TcM α := fun _ => .panic
/-- the bound on the recursion depth was too small -/
def fuel : TcM α := fun _ => .fuel
/-- code that does not touch the state and can only panic -/
def ofPanicky : Panicky α → TcM α
  | .ok a => pure a
  | .panic => panic
/-- `ok_or(e)?` -/
def ofOption : Option α → TcM α
  | some a => pure a
  | none => fail
/-- code that reads the state -/
def read (f : Checker → Outcome Unit α) : TcM α := fun st =>
  match f st with
  | .ok a => .ok (a, st)
  | .err e => .err e
  | .panic => .panic
  | .fuel => .fuel

end TcM

/-- `self.constraints[ix]` -/
def getConstraints (ix : Nat) : TcM UConstraints := fun st =>
  match st.constraints[ix]? with
  | some c => .ok (c, st)
  | none => .panic

/-- `self.constraints[ix] = c` (`replace_constraints_with_value`, src/typecheck.rs:3326-3331) -/
def setConstraints (ix : Nat) (c : UConstraints) : TcM Unit := fun st =>
  if ix < st.constraints.length then .ok ((), { st with constraints := st.constraints.set ix c })
  else .panic

/-- `get_canonical_uvar` (src/typecheck.rs:3333-3338). -/
def getCanonicalVar (v : Nat) : TcM Nat := fun st =>
  match st.aliases.getCanonical v with
  | .ok c => .ok (c, st)
  | .panic => .panic

/-- `VarMapMap::get_varmap` (src/typecheck.rs:568-572): a missing map panics. -/
def getVarmap (id : Nat) : TcM VarMap := fun st =>
  match st.store id with
  | some m => .ok (m, st)
  | none => .panic

/-- the map of variants stored under an identifier -/
def setVarmap (id : Nat) (m : Option VarMap) : TcM Unit := fun st =>
  .ok ((), { st with store := fun i => if i = id then m else st.store i })

/-- `get_new_uvar` (src/typecheck.rs:760-765). -/
def newVar : TcM Nat := fun st =>
  .ok (st.constraints.length,
    { st with constraints := st.constraints ++ [.indefinite], aliases := st.aliases ++ [.ground] })

/-- writes the history variable; there is no such step in the code -/
def note (r : Req) : TcM Unit := fun st => .ok ((), { st with history := st.history ++ [r] })

/-! ### occurs check -/

/-- `is_aliased` (src/typecheck.rs:3349-3364). -/
def Aliases.isAliased (t : Aliases) (v v1 : Nat) : Panicky Bool :=
  if v = v1 then .ok true
  else do
    let a ← t.get v
    let a1 ← t.get v1
    match a, a1 with
    | .ground, _ => .ok false
    | _, .ground => .ok false
    | .backRef x, .backRef y => .ok (decide (x = y))
    | .backRef x, .canonical _ => .ok (decide (x = v1))
    | .canonical _, .backRef y => .ok (decide (y = v))
    | .canonical _, .canonical _ => .ok false

/-- a loop that stops at the first failure -/
def forAll {α : Type} (f : α → Outcome Unit Unit) : List α → Outcome Unit Unit
  | [] => .ok ()
  | x :: xs => do
    f x
    forAll f xs

/-- `occurs_in_constraints` (src/typecheck.rs:1217-1249); `rec` is `occurs_in(v, _)`. -/
def occursInConstraints (o : Orders) (rec : UType → Outcome Unit Unit) (st : Checker) :
    UConstraints → Outcome Unit Unit
  | .indefinite => .ok ()
  | .variant id =>
    match st.store id with
    | some m => forAll (fun e => rec e.2) (o.entries m)
    | none => .panic
  | .invariant (.elem _) => .ok ()
  | .invariant (.numTree _) => .ok ()
  | .invariant (.equiv t) => rec t
  | .invariant (.proj (.tupleWith m)) => forAll (fun e => rec (.var e.2)) m
  | .invariant (.proj (.recordWith m)) => forAll (fun e => rec (.var e.2)) m
  | .invariant (.proj (.seqOf v)) => rec (.var v)
  | .invariant (.proj (.optOf v)) => rec (.var v)

/-- `occurs_in` (src/typecheck.rs:1253-1281). -/
def occursIn (o : Orders) (st : Checker) (v : Nat) : Nat → UType → Outcome Unit Unit
  | 0, _ => .fuel
  | n + 1, t =>
    match t with
    | .hole => .ok ()
    | .empty => .ok ()
    | .viewObj => .ok ()
    | .int _ => .ok ()
    | .base _ => .ok ()
    | .var v1 => do
      let al ← Outcome.ofPanicky (st.aliases.isAliased v v1)
      if al then .err ()
      else do
        let c ← Outcome.ofPanicky (st.aliases.getCanonical v1)
        let cs ← Outcome.ofPanicky (Panicky.unwrap st.constraints[c]?)
        occursInConstraints o (occursIn o st v n) st cs
    | .tuple ts => forAll (occursIn o st v n) ts
    | .record fs => forAll (fun e => occursIn o st v n e.2) fs
    | .seq t _ => occursIn o st v n t
    | .option t => occursIn o st v n t
    | .phantom t => occursIn o st v n t

/-- `occurs` (src/typecheck.rs:1211-1213): it starts from the constraints at the index of `v` itself. -/
def occurs (o : Orders) (fuel v : Nat) : TcM Unit :=
  TcM.read fun st => do
    let cs ← Outcome.ofPanicky (Panicky.unwrap st.constraints[v]?)
    occursInConstraints o (occursIn o st v fuel) st cs

/-! ### unification

The functions below call each other; the ones that are only called from one place of the recursion take
the recursive calls as arguments. -/

/-- `unify_primint_basetype` (src/typecheck.rs:1855-1862). -/
def unifyPrimintBasetype (p : MachineRep) (b : BaseType) : TcM UType :=
  match b with
  | .num w => if p = ⟨false, w⟩ then pure (.base b) else TcM.fail
  | _ => TcM.fail

/-- `unify_primint_baseset` (src/typecheck.rs:1075-1086). -/
def unifyPrimintBaseset (p : MachineRep) (bs : BaseSet) : TcM UConstraint :=
  if bs.isEmpty then TcM.fail
  else
    match IntSet.ofBaseSet bs with
    | none => TcM.fail
    | some is => if is.contains p then pure (.numTree (.single p)) else TcM.fail

/-- `BaseSet::unify(..)?` -/
def unifyBasesets (s t : BaseSet) : TcM BaseSet := do
  let r ← TcM.ofPanicky (s.unify t)
  TcM.ofOption r

/-- `unify_basetype_intset` (src/typecheck.rs:2209-2217). -/
def unifyBasetypeIntset (b : BaseType) (is : IntSet) : TcM UConstraint :=
  match b with
  | .num w => do
    let r ← TcM.ofOption (is.unify (.single ⟨false, w⟩))
    if r.isEmpty then TcM.fail else pure r.toConstraint
  | _ => TcM.fail

/-- `unify_baseset_intset` (src/typecheck.rs:2185-2206), without the feature `__unify_mixed_to_int`. -/
def unifyBasesetIntset (bs : BaseSet) (is : IntSet) : TcM UConstraint :=
  if bs.isEmpty then TcM.fail
  else if is.isEmpty then TcM.fail
  else do
    let other ← TcM.ofOption is.toBaseSet
    let r ← unifyBasesets bs other
    pure (.elem r)

/-- the loop over the components of two tuples (src/typecheck.rs:1682-1685) -/
def unifyTypes (utype : UType → UType → TcM UType) : List UType → List UType → TcM (List UType)
  | a :: as, b :: bs => do
    let t ← utype a b
    let ts ← unifyTypes utype as bs
    pure (t :: ts)
  | _, _ => pure []

/-- the loop over the fields of two records (src/typecheck.rs:1695-1700) -/
def unifyFields (utype : UType → UType → TcM UType) :
    List (String × UType) → List (String × UType) → TcM (List (String × UType))
  | (l1, a) :: as, (l2, b) :: bs =>
    if l1 ≠ l2 then TcM.fail
    else do
      let t ← utype a b
      let ts ← unifyFields utype as bs
      pure ((l1, t) :: ts)
  | _, _ => pure []

/-- `unify_var_utype` (src/typecheck.rs:1744-1756). -/
def unifyVarUtypeWith (pair : Nat → Nat → TcM Unit) (varC : Nat → UConstraint → TcM UConstraint)
    (v : Nat) (t : UType) : TcM Unit :=
  match t with
  | .var v2 => pair v v2
  | _ => do
    let _ ← varC v (.equiv t)
    pure ()

/-- the loop over the keys of two maps of projected variables (src/typecheck.rs:1942-1953) -/
def unifyIxMaps (pair : Nat → Nat → TcM Unit) (t1 t2 : List (Nat × Nat)) :
    List Nat → List (Nat × Nat) → TcM (List (Nat × Nat))
  | [], acc => pure acc
  | k :: ks, acc =>
    match NMap.get k t1, NMap.get k t2 with
    | some v1, some v2 => do
      pair v1 v2
      unifyIxMaps pair t1 t2 ks (NMap.insert k (min v1 v2) acc)
    | some v, none => unifyIxMaps pair t1 t2 ks (NMap.insert k v acc)
    | none, some v => unifyIxMaps pair t1 t2 ks (NMap.insert k v acc)
    | none, none => TcM.panic

/-- the loop over the keys of two maps of projected variables (src/typecheck.rs:1976-1987) -/
def unifyFieldMaps (pair : Nat → Nat → TcM Unit) (t1 t2 : List (String × Nat)) :
    List String → List (String × Nat) → TcM (List (String × Nat))
  | [], acc => pure acc
  | k :: ks, acc =>
    match TMap.get k t1, TMap.get k t2 with
    | some v1, some v2 => do
      pair v1 v2
      unifyFieldMaps pair t1 t2 ks (TMap.insert k (min v1 v2) acc)
    | some v, none => unifyFieldMaps pair t1 t2 ks (TMap.insert k v acc)
    | none, some v => unifyFieldMaps pair t1 t2 ks (TMap.insert k v acc)
    | none, none => TcM.panic

/-- `HashSet::union` of the keys, without repetitions -/
def unionKeys {α : Type} [DecidableEq α] (a b : List α) : List α := a ++ b.filter (fun k => !a.contains k)

/-- two projections (src/typecheck.rs:1926-2019) -/
def unifyProjs (o : Orders) (pair : Nat → Nat → TcM Unit) : ProjShape → ProjShape → TcM ProjShape
  | .tupleWith t1, .tupleWith t2 =>
    if t1 = t2 then pure (.tupleWith t1)
    else do
      let t0 ← unifyIxMaps pair t1 t2 (o.nats (unionKeys (t1.map Prod.fst) (t2.map Prod.fst))) []
      pure (.tupleWith t0)
  | .recordWith t1, .recordWith t2 =>
    if t1 = t2 then pure (.recordWith t1)
    else do
      let t0 ← unifyFieldMaps pair t1 t2 (o.labels (unionKeys (t1.map Prod.fst) (t2.map Prod.fst))) []
      pure (.recordWith t0)
  | .seqOf v1, .seqOf v2 => do
    pair v1 v2
    pure (.seqOf v1)
  | .optOf v1, .optOf v2 => do
    pair v1 v2
    pure (.optOf v1)
  | _, _ => TcM.fail

/-- the loop over the components of a tuple of known type (src/typecheck.rs:2068-2073), from index `i` -/
def projTuple (varU : Nat → UType → TcM Unit) (m : List (Nat × Nat)) : Nat → List UType → TcM Unit
  | _, [] => pure ()
  | i, t :: ts =>
    match NMap.get i m with
    | some v => do
      varU v t
      projTuple varU m (i + 1) ts
    | none => projTuple varU m (i + 1) ts

/-- the loop over the fields of a record of known type (src/typecheck.rs:2038-2049) -/
def projRecord (varU : Nat → UType → TcM Unit) (m : List (String × Nat)) :
    List (String × UType) → TcM Unit
  | [] => pure ()
  | (l, t) :: fs =>
    match TMap.get l m with
    | some v => do
      varU v t
      projRecord varU m fs
    | none => projRecord varU m fs

/-- a projection against a type (src/typecheck.rs:2028-2104); types of another shape are
`unreachable!`. -/
def unifyProjUtype (pair : Nat → Nat → TcM Unit) (varC : Nat → UConstraint → TcM UConstraint)
    (p : ProjShape) (t : UType) : TcM UConstraint :=
  match t with
  | .var v => varC v (.proj p)
  | _ =>
    match p, t with
    | .recordWith m, .record fs => do
      projRecord (unifyVarUtypeWith pair varC) m fs
      if m.all (fun e => (fs.map Prod.fst).contains e.1) then pure (.equiv t) else TcM.fail
    | .tupleWith m, .tuple ts => do
      projTuple (unifyVarUtypeWith pair varC) m 0 ts
      if m.all (fun e => decide (e.1 < ts.length)) then pure (.equiv t) else TcM.fail
    | .seqOf v, .seq t' _ => do
      unifyVarUtypeWith pair varC v t'
      pure (.equiv t)
    | .optOf v, .option t' => do
      unifyVarUtypeWith pair varC v t'
      pure (.equiv t)
    | _, _ => TcM.panic

/-- `unify_utype_baseset` (src/typecheck.rs:1775-1791). -/
def unifyUtypeBasesetWith (varC : Nat → UConstraint → TcM UConstraint) (t : UType) (bs : BaseSet) :
    TcM UConstraint :=
  match t with
  | .var v => varC v bs.toConstraint
  | .int p => unifyPrimintBaseset p bs
  | .base b => do
    let r ← unifyBasesets bs (.single b)
    pure r.toConstraint
  | .hole => pure bs.toConstraint
  | _ => TcM.fail

/-- `unify_utype_intset` (src/typecheck.rs:1809-1825). -/
def unifyUtypeIntsetWith (varC : Nat → UConstraint → TcM UConstraint) (t : UType) (is : IntSet) :
    TcM UConstraint :=
  match t with
  | .var v => varC v is.toConstraint
  | .int p => do
    let r ← TcM.ofOption (is.unify (.single p))
    pure r.toConstraint
  | .base b => unifyBasetypeIntset b is
  | .hole => pure is.toConstraint
  | _ => TcM.fail

/-- `repoint_vmid` (src/typecheck.rs:1623-1630). -/
def repointVmid (v id : Nat) : TcM Unit := do
  match ← getConstraints v with
  | .variant _ => setConstraints v (.variant id)
  | _ => TcM.panic

/-- the loop of `unify_varmaps` over the drained entries (src/typecheck.rs:2162-2170); `v` is only used for
the history variable -/
def mergeEntries (utype : UType → UType → TcM UType) (v lo : Nat) : VarMap → TcM Unit
  | [] => pure ()
  | (l, t) :: es => do
    let m ← getVarmap lo
    match TMap.get l m with
    | some tlo => do
      let u ← utype tlo t
      let m' ← getVarmap lo
      setVarmap lo (some (TMap.insert l u m'))
      note ⟨v, none, [.ent l u]⟩
      mergeEntries utype v lo es
    | none => do
      setVarmap lo (some (TMap.insert l t m))
      note ⟨v, none, [.ent l t]⟩
      mergeEntries utype v lo es

/-- `unify_varmaps` (src/typecheck.rs:2147-2182). -/
def unifyVarmaps (o : Orders) (utype : UType → UType → TcM UType) (v1 id1 v2 id2 : Nat) : TcM Unit :=
  if id1 = id2 then pure ()
  else do
    let lo := min id1 id2
    let hi := max id1 id2
    let m ← getVarmap hi
    setVarmap hi (some [])
    mergeEntries utype v1 lo (o.entries m)
    let _ ← getVarmap hi
    setVarmap hi none
    repointVmid v1 lo
    repointVmid v2 lo

/-- the error of a union meeting something else: it copies the map of variants, so a missing one panics
(src/typecheck.rs:1394-1400, 3280-3287, 3295-3301) -/
def varianceMismatch {α : Type} (id : Nat) : TcM α := do
  let _ ← getVarmap id
  TcM.fail

/-- `transfer_constraints` (src/typecheck.rs:3261-3316). -/
def transferConstraints (o : Orders) (utype : UType → UType → TcM UType)
    (cpair : UConstraint → UConstraint → TcM UConstraint) (a1 a2 : Nat) : TcM Unit :=
  if a1 = a2 then pure ()
  else do
    let c1 ← getConstraints a1
    let c2 ← getConstraints a2
    match c1, c2 with
    | .indefinite, .indefinite => pure ()
    | .indefinite, _ => setConstraints a1 c2
    | _, .indefinite => setConstraints a2 c1
    | .variant id1, .variant id2 => unifyVarmaps o utype a1 id1 a2 id2
    | .variant id, .invariant c => if c.isVacuous then pure () else varianceMismatch id
    | .invariant c, .variant id => if c.isVacuous then pure () else varianceMismatch id
    | .invariant x, .invariant y => do
      let c0 ← cpair x y
      setConstraints a1 (.invariant c0)
      setConstraints a2 (.invariant c0)
      note ⟨a1, none, [.con c0]⟩

/-- the part of `unify_var_pair` that decides which constraints to merge (src/typecheck.rs:3052-3211) -/
def planPair (v1 v2 : Nat) : TcM Aliases.Plan := fun st =>
  match st.aliases.pairChecker v1 v2 with
  | .ok (plan, al) => .ok (plan, { st with aliases := al })
  | .panic => .panic

mutual
/-- `unify_utype` (src/typecheck.rs:1632-1741). -/
def unifyUtype (o : Orders) : Nat → UType → UType → TcM UType
  | 0, _, _ => TcM.fuel
  | n + 1, l, r =>
    match l, r with
    | .hole, _ => pure r
    | _, .hole => pure l
    | .empty, _ => pure r
    | _, .empty => pure l
    | .viewObj, .viewObj => pure l
    | .seq e1 h1, .seq e2 h2 =>
      if e1 = e2 then pure (if h1.rank ≤ h2.rank then l else r)
      else do
        let t ← unifyUtype o n e1 e2
        pure (.seq t (h1.min h2))
    | .option e1, .option e2 =>
      if e1 = e2 then pure l
      else do
        let t ← unifyUtype o n e1 e2
        pure (.option t)
    | .phantom e1, .phantom e2 =>
      if e1 = e2 then pure l
      else do
        let t ← unifyUtype o n e1 e2
        pure (.phantom t)
    | .base b1, .base b2 => if b1 ≠ b2 then TcM.fail else pure l
    | .tuple ts1, .tuple ts2 =>
      if ts1.length ≠ ts2.length then TcM.fail
      else if ts1 = ts2 then pure l
      else do
        let ts ← unifyTypes (unifyUtype o n) ts1 ts2
        pure (.tuple ts)
    | .record fs1, .record fs2 =>
      if fs1.length ≠ fs2.length then TcM.fail
      else if fs1 = fs2 then pure l
      else do
        let fs ← unifyFields (unifyUtype o n) fs1 fs2
        pure (.record fs)
    | .var v1, .var v2 => do
      unifyVarPair o n v1 v2
      pure (.var (min v1 v2))
    | .int p1, .int p2 => if p1 = p2 then pure l else TcM.fail
    | .int p, .base b => unifyPrimintBasetype p b
    | .base b, .int p => unifyPrimintBasetype p b
    | .var v, _ => do
      let _ ← unifyVarConstraint o n v (.equiv r)
      occurs o n v
      pure (.var v)
    | _, .var v => do
      let _ ← unifyVarConstraint o n v (.equiv l)
      occurs o n v
      pure (.var v)
    | _, _ => TcM.fail

/-- `unify_var_constraint` (src/typecheck.rs:1385-1417). -/
def unifyVarConstraint (o : Orders) : Nat → Nat → UConstraint → TcM UConstraint
  | 0, _, _ => TcM.fuel
  | n + 1, v, c => do
    let can ← getCanonicalVar v
    match ← getConstraints can with
    | .indefinite => do
      setConstraints can (.invariant c)
      note ⟨v, c.light, [.con c]⟩
      pure c
    | .variant id => varianceMismatch id
    | .invariant c1 =>
      if c1 = c then do
        note ⟨v, c.light, [.con c]⟩
        pure c1
      else do
        let c0 ← unifyConstraintPair o n c1 c
        setConstraints can (.invariant c0)
        note ⟨v, c.light, [.con c, .con c0]⟩
        pure c0

/-- `unify_constraint_pair` (src/typecheck.rs:1911-2141). -/
def unifyConstraintPair (o : Orders) : Nat → UConstraint → UConstraint → TcM UConstraint
  | 0, _, _ => TcM.fuel
  | n + 1, c1, c2 =>
    match c1, c2 with
    | .equiv t1, .equiv t2 =>
      if t1 = t2 then pure (.equiv t1)
      else do
        let t0 ← unifyUtype o n t1 t2
        pure (.equiv t0)
    | .elem b1, .elem b2 => do
      let b0 ← unifyBasesets b1 b2
      pure b0.toConstraint
    | .proj p1, .proj p2 => do
      let p0 ← unifyProjs o (unifyVarPair o n) p1 p2
      pure (.proj p0)
    | .equiv t, .elem bs => unifyUtypeBasesetWith (unifyVarConstraint o n) t bs
    | .elem bs, .equiv t => unifyUtypeBasesetWith (unifyVarConstraint o n) t bs
    | .proj p, .equiv t => unifyProjUtype (unifyVarPair o n) (unifyVarConstraint o n) p t
    | .equiv t, .proj p => unifyProjUtype (unifyVarPair o n) (unifyVarConstraint o n) p t
    | .elem _, .proj _ => TcM.fail
    | .numTree _, .proj _ => TcM.fail
    | .proj _, .elem _ => TcM.fail
    | .proj _, .numTree _ => TcM.fail
    | .numTree i1, .numTree i2 =>
      if i1 = i2 then pure (.numTree i1)
      else do
        let i0 ← TcM.ofOption (i1.unify i2)
        pure (.numTree i0)
    | .equiv t, .numTree is => unifyUtypeIntsetWith (unifyVarConstraint o n) t is
    | .numTree is, .equiv t => unifyUtypeIntsetWith (unifyVarConstraint o n) t is
    | .elem bs, .numTree is => unifyBasesetIntset bs is
    | .numTree is, .elem bs => unifyBasesetIntset bs is

/-- `unify_var_pair` (src/typecheck.rs:3052-3211); what happens to the table of aliases is
`Aliases.pairChecker`. -/
def unifyVarPair (o : Orders) : Nat → Nat → Nat → TcM Unit
  | 0, _, _ => TcM.fuel
  | n + 1, v1, v2 => do
    match ← planPair v1 v2 with
    | .same _ => pure ()
    | .transfer a1 a2 => do
      note ⟨a1, none, []⟩
      transferConstraints o (unifyUtype o n) (unifyConstraintPair o n) a1 a2
end

/-- `unify_var_utype` (src/typecheck.rs:1744-1756). -/
def unifyVarUtype (o : Orders) (n : Nat) (v : Nat) (t : UType) : TcM Unit :=
  unifyVarUtypeWith (unifyVarPair o n) (unifyVarConstraint o n) v t

/-- `unify_var_baseset` (src/typecheck.rs:1837-1841). -/
def unifyVarBaseset (o : Orders) (n : Nat) (v : Nat) (bs : BaseSet) : TcM Unit := do
  let _ ← unifyVarConstraint o n v bs.toConstraint
  pure ()

/-- `unify_var_intset` (src/typecheck.rs:1827-1831). -/
def unifyVarIntset (o : Orders) (n : Nat) (v : Nat) (is : IntSet) : TcM Unit := do
  let _ ← unifyVarConstraint o n v is.toConstraint
  pure ()

/-- `init_var_simple` (src/typecheck.rs:751-757). -/
def initVarSimple (o : Orders) (n : Nat) (t : UType) : TcM Nat := do
  let v ← newVar
  let _ ← unifyVarConstraint o n v (.equiv t)
  pure v

/-! ### projections -/

/-- the constraint at the canonical variable, replaced in place (`match &mut self.constraints[..]`) -/
def insertIx (can ix v : Nat) (m : List (Nat × Nat)) : TcM Unit :=
  setConstraints can (.invariant (.proj (.tupleWith (NMap.insert ix v m))))

/-- `unify_var_proj_index` (src/typecheck.rs:1421-1456). -/
def unifyVarProjIndex (o : Orders) (n : Nat) (tv ix v : Nat) : TcM Unit := do
  let can ← getCanonicalVar tv
  match ← getConstraints can with
  | .indefinite => do
    let _ ← unifyVarConstraint o n tv (.proj (.tupleWith [(ix, v)]))
    pure ()
  | .invariant (.equiv (.tuple ts)) =>
    match ts[ix]? with
    | some t => unifyVarUtype o n v t
    | none => TcM.panic
  | .invariant (.proj (.tupleWith m)) =>
    match NMap.get ix m with
    | some v' => unifyVarPair o n v v'
    | none => insertIx can ix v m
  | _ => TcM.panic

/-- `unify_var_proj_field` (src/typecheck.rs:1460-1513); the recursion on a constraint `Equiv(Var)` is
bounded by the first number. -/
def unifyVarProjField (o : Orders) (n : Nat) : Nat → Nat → String → Nat → TcM Unit
  | 0, _, _, _ => TcM.fuel
  | k + 1, rv, l, v => do
    let can ← getCanonicalVar rv
    match ← getConstraints can with
    | .indefinite => do
      let _ ← unifyVarConstraint o n rv (.proj (.recordWith [(l, v)]))
      pure ()
    | .invariant (.equiv (.record fs)) =>
      match TMap.get l fs with
      | some t => unifyVarUtype o n v t
      | none => TcM.panic
    | .invariant (.equiv (.var v')) => unifyVarProjField o n k v' l v
    | .invariant (.proj (.recordWith m)) =>
      match TMap.get l m with
      | some v' => unifyVarPair o n v v'
      | none => setConstraints can (.invariant (.proj (.recordWith (TMap.insert l v m))))
    | _ => TcM.panic

/-- `unify_var_proj_param` (src/typecheck.rs:1517-1557). -/
def unifyVarProjParam (o : Orders) (n : Nat) (ov v : Nat) : TcM Unit := do
  let can ← getCanonicalVar ov
  match ← getConstraints can with
  | .indefinite => do
    let _ ← unifyVarConstraint o n ov (.proj (.optOf v))
    pure ()
  | .invariant (.equiv (.option t)) => unifyVarUtype o n v t
  | .invariant (.proj (.optOf v')) => unifyVarPair o n v v'
  | _ => TcM.panic

/-- `unify_var_proj_elem` (src/typecheck.rs:1561-1597). -/
def unifyVarProjElem (o : Orders) (n : Nat) (sv v : Nat) : TcM Unit := do
  let can ← getCanonicalVar sv
  match ← getConstraints can with
  | .indefinite => do
    let _ ← unifyVarConstraint o n sv (.proj (.seqOf v))
    pure ()
  | .invariant (.equiv (.seq t _)) => unifyVarUtype o n v t
  | .invariant (.proj (.seqOf v')) => unifyVarPair o n v v'
  | _ => TcM.panic

/-! ### variants -/

/-- `set_uvar_vmid` (src/typecheck.rs:1330-1374).  Its `debug_assert!` on the keys of an older map is left
out (it is skipped in release builds). -/
def setUvarVmid (v id : Nat) : TcM Unit := do
  let _ ← getVarmap id
  match ← getConstraints v with
  | .variant _ => setConstraints v (.variant id)
  | .invariant _ => TcM.fail
  | .indefinite => setConstraints v (.variant id)

/-- the loop over the aliases of a canonical variable (src/typecheck.rs:1304-1307) -/
def setAllVmid (id : Nat) : List Nat → TcM Unit
  | [] => pure ()
  | v :: vs => do
    setUvarVmid v id
    setAllVmid id vs

/-- `self.varmaps.get_new_id()` (src/typecheck.rs:576-585), followed by the insertion of a first entry
(src/typecheck.rs:1299-1301) -/
def newVarmap (m : VarMap) : TcM Nat := fun st =>
  .ok (st.nextId,
    { st with nextId := st.nextId + 1, store := fun i => if i = st.nextId then some m else st.store i })

/-- `self.aliases[v].iter_fwd_refs()` (src/typecheck.rs:1303) -/
def getFwdRefs (v : Nat) : TcM (List Nat) := fun st =>
  match st.aliases.get v with
  | .ok a => .ok (a.fwdRefs, st)
  | .panic => .panic

/-- `add_uvar_variant` (src/typecheck.rs:1291-1328). -/
def addUvarVariant (o : Orders) (n : Nat) (v : Nat) (l : String) (t : UType) : TcM Unit := do
  let cv ← getCanonicalVar v
  match ← getConstraints cv with
  | .indefinite => do
    let id ← newVarmap [(l, t)]
    setUvarVmid cv id
    let fwd ← getFwdRefs cv
    setAllVmid id fwd
  | .variant id => do
    let m ← getVarmap id
    match TMap.get l m with
    | some prior => do
      let u ← unifyUtype o n prior t
      let m' ← getVarmap id
      setVarmap id (some (TMap.insert l u m'))
      note ⟨v, none, [.ent l u]⟩
    | none => do
      setVarmap id (some (TMap.insert l t m))
      note ⟨v, none, [.ent l t]⟩
  | .invariant _ => TcM.panic

end Tc
end Doodle
