/-! Model of `WithErr` and `IxHeap` (/repo/src/util.rs). -/

namespace Doodle

/-- `struct WithErr<T, E0> { value, errs }` (src/util.rs:97-103). -/
structure WithErr (T E : Type) where
  value : T
  errs : List E
deriving DecidableEq, Repr

/-- `type EResult<T, E0, E1> = Result<WithErr<T, E0>, E1>` (src/util.rs:218). -/
abbrev EResult (T E E1 : Type) := Except E1 (WithErr T E)

namespace WithErr
variable {T U E E1 : Type}

/-- `WithErr::new` (src/util.rs:107-112). -/
def new (value : T) : WithErr T E := ⟨value, []⟩
/-- `WithErr::with_err` (src/util.rs:114-119). -/
def withErr (value : T) (err : E) : WithErr T E := ⟨value, [err]⟩
/-- `WithErr::from_parts` (src/util.rs:122-124). -/
def fromParts (value : T) (errs : List E) : WithErr T E := ⟨value, errs⟩
/-- `WithErr::map` (src/util.rs:127-132). -/
def map (s : WithErr T E) (f : T → U) : WithErr U E := ⟨f s.value, s.errs⟩

/-- `WithErr::join` (src/util.rs:139-144): `ret.errs.append(&mut this_errs)` puts the errors of `self`
*after* those of the result of `f`. -/
def join (s : WithErr T E) (f : T → EResult U E E1) : EResult U E E1 :=
  match f s.value with
  | .error e => .error e
  | .ok ret => .ok ⟨ret.value, ret.errs ++ s.errs⟩

/-- The loop of `WithErr::fold` (src/util.rs:158-163). -/
def foldLoop (f : U → T → EResult U E E1) : WithErr U E → List T → EResult U E E1
  | acc, [] => .ok acc
  | acc, v :: vs =>
    match f acc.value v with
    | .error e => .error e
    | .ok newAcc => foldLoop f ⟨newAcc.value, newAcc.errs ++ acc.errs⟩ vs

/-- `WithErr::fold` (src/util.rs:152-165). -/
def fold (init : U) (values : List T) (f : U → T → EResult U E E1) : EResult U E E1 :=
  foldLoop f (new init) values

/-- `WithErr::into_inner` (src/util.rs:168-170). -/
def intoInner (s : WithErr T E) : T := s.value
/-- `WithErr::has_errs` (src/util.rs:184-186). -/
def hasErrs (s : WithErr T E) : Bool := !s.errs.isEmpty
/-- `WithErr::into_strict` (src/util.rs:189-195). -/
def intoStrict (s : WithErr T E) : Except (List E) T :=
  if s.errs.isEmpty then .ok s.value else .error s.errs
/-- `WithErr::lift` (src/util.rs:206-209): value and updated outer error list. -/
def lift (s : WithErr T E) (outer : List E) : T × List E := (s.value, outer ++ s.errs)

end WithErr

/-- `downgrade_error_with` (src/util.rs:221-235); logging is not modelled. -/
def downgradeErrorWith {T E : Type} (val : EResult T E E) (dflt : T) : WithErr T E :=
  match val with
  | .ok v => v
  | .error e => WithErr.withErr dflt e

/-- `struct IxHeap<T> { _store: BTreeMap<usize, T>, _len }` at `T = Vec<α>` (src/util.rs:27-31).
The map is an association list with at most one entry per key. -/
structure IxHeap (α : Type) where
  store : List (Nat × List α)
  len : Nat

namespace IxHeap
variable {α : Type}

/-- `IxHeap::new` (src/util.rs:41-46). -/
def new : IxHeap α := ⟨[], 0⟩

/-- `BTreeMap::insert` (std): replace the entry of the key or add one. -/
def mapInsert (m : List (Nat × List α)) (k : Nat) (v : List α) : List (Nat × List α) :=
  (k, v) :: m.filter (fun p => p.1 != k)

/-- `BTreeMap::get` (std). -/
def mapGet (m : List (Nat × List α)) (k : Nat) : Option (List α) :=
  (m.find? (fun p => p.1 == k)).map (·.2)

/-- `IxHeap::push` with `push_empty` / `push_nonempty` (src/util.rs:61-76). -/
def push (h : IxHeap α) (elem : List α) : IxHeap α :=
  if elem.isEmpty then { h with len := h.len + 1 }
  else ⟨mapInsert h.store h.len elem, h.len + 1⟩

/-- `IxHeap::get` (src/util.rs:81-84); `none` models the failed `assert!`. -/
def get (h : IxHeap α) (ix : Nat) : Option (List α) :=
  if ix < h.len then some ((mapGet h.store ix).getD []) else none

end IxHeap
end Doodle
