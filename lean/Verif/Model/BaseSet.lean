import Verif.Model.Panicky
import Verif.Model.ValueType
import Verif.Model.NumCore

/-! Model of /repo/src/typecheck/base_set.rs: ranked sets of candidate integer types. -/

namespace Doodle
namespace Tc

open Num (MachineRep BitWidth)

/-- `Rank` (src/typecheck/base_set.rs:258-263). -/
inductive Rank where
  | excluded
  | at (n : Nat)
deriving DecidableEq, Repr

/-- `Rank::is_excluded` (src/typecheck/base_set.rs:266-268). -/
def Rank.isExcluded : Rank → Bool
  | .excluded => true
  | .at _ => false

/-- `Ord for Rank` (src/typecheck/base_set.rs:280-292): lower numbers are greater. -/
def Rank.cmp : Rank → Rank → Ordering
  | .at n, .at m => (compare n m).swap
  | .at _, .excluded => .gt
  | .excluded, .at _ => .lt
  | .excluded, .excluded => .eq

/-- `a < b` on ranks (src/typecheck/base_set.rs:274-278) -/
def Rank.lt (a b : Rank) : Bool := a.cmp b == .lt

/-- `a >= b` on ranks (src/typecheck/base_set.rs:274-278) -/
def Rank.ge (a b : Rank) : Bool := a.cmp b != .lt

/-- the array `ranks` of a `UintSet` (`n = 4`, src/typecheck/base_set.rs:295-299) or of a `PrimIntSet`
(`n = 8`, src/typecheck/base_set.rs:488-492) -/
abbrev Ranks (n : Nat) := Fin n → Rank

namespace Ranks
variable {n : Nat}

/-- `normalize` (src/typecheck/base_set.rs:420-431, 609-620). -/
def normalize (s : Ranks n) : Ranks n := fun i =>
  if s i = .excluded then s i
  else .at ((List.finRange n).countP (fun j => (s j).ge (s i)) - 1)

/-- `min_max` (src/typecheck.rs:36-38). -/
def minMax (a b : Rank) : Rank × Rank := if a.lt b then (a, b) else (b, a)

/-- `intersection` (src/typecheck/base_set.rs:435-446, 624-635). -/
def intersection (s t : Ranks n) : Ranks n :=
  let this := s.normalize
  let other := t.normalize
  normalize fun i =>
    let r := minMax (this i) (other i)
    if r.1.isExcluded then .excluded else r.2

/-- the state of the loop of `get_unique_solution`: `candidate`, `max_rank`, `is_unique` -/
structure Best (n : Nat) where
  candidate : Option (Fin n)
  maxRank : Rank
  isUnique : Bool

/-- one step of that loop (src/typecheck/base_set.rs:460-475, 649-664) -/
def Best.step (s : Ranks n) (b : Best n) (ix : Fin n) : Best n :=
  match s ix with
  | .excluded => b
  | .at k =>
    match (Rank.at k).cmp b.maxRank with
    | .gt => ⟨some ix, .at k, true⟩
    | .lt => b
    | .eq => { b with isUnique := false }

/-- `get_unique_solution` (src/typecheck/base_set.rs:455-483, 644-672), as an index. -/
def uniqueSolution (s : Ranks n) : Option (Fin n) :=
  let b := (List.finRange n).foldl (Best.step s.normalize) ⟨none, .excluded, true⟩
  match b.candidate with
  | some ix => if b.isUnique then some ix else none
  | none => none

/-- `as_singleton` (src/typecheck/base_set.rs:401-410, 568-577), as an index. -/
def asSingleton (s : Ranks n) : Option (Fin n) :=
  match (List.finRange n).filter fun i => !(s.normalize i).isExcluded with
  | [i] => some i
  | _ => none

/-- `is_empty` (src/typecheck/base_set.rs:380-390, 541-555). -/
def isEmpty (s : Ranks n) : Bool := (List.finRange n).all fun i => decide (s i = .excluded)

end Ranks

/-! ### sets of unsigned types -/

/-- `UintSet` (src/typecheck/base_set.rs:295-299). -/
abbrev UintSet := Ranks 4

/-- `UintSet::IX_ORDER` (src/typecheck/base_set.rs:305-306). -/
def uintAt : Fin 4 → BitWidth
  | 0 => .b8
  | 1 => .b16
  | 2 => .b32
  | 3 => .b64

/-- `BitWidth as usize` (src/numeric/core.rs:75-81). -/
def widthIx : BitWidth → Fin 4
  | .b8 => 0
  | .b16 => 1
  | .b32 => 2
  | .b64 => 3

/-- `BaseType::int_width` (src/typecheck/base_set.rs:704-712). -/
def intWidth : BaseType → Panicky BitWidth
  | .num w => .ok w
  | _ => .panic

/-- `UintSet::contains` (src/typecheck/base_set.rs:377-379). -/
def UintSet.contains (s : UintSet) (b : BaseType) : Panicky Bool := do
  let w ← intWidth b
  .ok (decide (s (widthIx w) ≠ .excluded))

/-- `UintSet::ANY` (src/typecheck/base_set.rs:310-312). -/
def UintSet.any : UintSet := fun _ => .at 3

/-- `UintSet::EMPTY` (src/typecheck/base_set.rs:315-317). -/
def UintSet.empty : UintSet := fun _ => .excluded

/-- `UintSet::SHORT8` (src/typecheck/base_set.rs:321-323). -/
def UintSet.short8 : UintSet
  | 0 => .at 0
  | 1 => .at 1
  | _ => .excluded

/-- `UintSet::any_default` (src/typecheck/base_set.rs:332-340). -/
def UintSet.anyDefault (w : BitWidth) : UintSet := fun i => if i = widthIx w then .at 0 else .at 3

/-- `UintSet::at_least` (src/typecheck/base_set.rs:345-353). -/
def UintSet.atLeast : BitWidth → UintSet
  | .b8 => fun _ => .at 3
  | .b16 => fun i => if i.val < 1 then .excluded else .at 2
  | .b32 => fun i => if i.val < 2 then .excluded else .at 1
  | .b64 => fun i => if i.val < 3 then .excluded else .at 0

/-- `BaseSet` (src/typecheck/base_set.rs:13-19). -/
inductive BaseSet where
  | single (b : BaseType)
  | u (s : UintSet)

/-- `BaseSet::contains` (src/typecheck/base_set.rs:23-28). -/
def BaseSet.contains (s : BaseSet) (b : BaseType) : Panicky Bool :=
  match s with
  | .single b' => .ok (decide (b' = b))
  | .u us => UintSet.contains us b

/-- `BaseSet::is_empty` (src/typecheck/base_set.rs:31-36). -/
def BaseSet.isEmpty : BaseSet → Bool
  | .single _ => false
  | .u us => us.isEmpty

/-- `BaseSet::unify` (src/typecheck/base_set.rs:50-75); `none` is the error (whose contents are not
modelled). -/
def BaseSet.unify (s t : BaseSet) : Panicky (Option BaseSet) :=
  match s, t with
  | .single b1, .single b2 => .ok (if b1 = b2 then some (.single b1) else none)
  | .u us, .single b => do
    let c ← UintSet.contains us b
    .ok (if c then some (.single b) else none)
  | .single b, .u us => do
    let c ← UintSet.contains us b
    .ok (if c then some (.single b) else none)
  | .u u1, .u u2 => .ok (some (.u (Ranks.intersection u1 u2)))

/-- the results of `get_unique_solution` on sets (src/typecheck/base_set.rs:99-111, 240-252) -/
inductive Solution (α : Type) where
  | found (a : α)
  | noSolution
  | multiple
deriving DecidableEq

/-- `BaseSet::get_unique_solution` (src/typecheck/base_set.rs:99-111). -/
def BaseSet.uniqueSolution : BaseSet → Solution BaseType
  | .single b => .found b
  | .u us =>
    if Ranks.isEmpty us then .noSolution
    else match Ranks.uniqueSolution us with
      | some i => .found (.num (uintAt i))
      | none => .multiple

/-! ### sets of primitive integer types -/

/-- `PrimIntSet` (src/typecheck/base_set.rs:488-492). -/
abbrev PrimIntSet := Ranks 8

/-- `PRIM_INTS` (src/numeric/elaborator.rs:79-88); a `PrimInt` is its machine representation
(src/numeric/elaborator.rs `From<PrimInt> for MachineRep`). -/
def primAt : Fin 8 → MachineRep
  | 0 => Num.U8
  | 1 => Num.U16
  | 2 => Num.U32
  | 3 => Num.U64
  | 4 => Num.I8
  | 5 => Num.I16
  | 6 => Num.I32
  | 7 => Num.I64

/-- `PrimIntSet::prim_as_index` (src/typecheck/base_set.rs:688-700). -/
def primIx : MachineRep → Fin 8
  | ⟨false, .b8⟩ => 0
  | ⟨false, .b16⟩ => 1
  | ⟨false, .b32⟩ => 2
  | ⟨false, .b64⟩ => 3
  | ⟨true, .b8⟩ => 4
  | ⟨true, .b16⟩ => 5
  | ⟨true, .b32⟩ => 6
  | ⟨true, .b64⟩ => 7

/-- `PrimIntSet::contains` (src/typecheck/base_set.rs:562-564). -/
def PrimIntSet.contains (s : PrimIntSet) (p : MachineRep) : Bool := !(s (primIx p)).isExcluded

/-- `PrimIntSet::remove` (src/typecheck/base_set.rs:602-604). -/
def PrimIntSet.remove (s : PrimIntSet) (p : MachineRep) : PrimIntSet := fun i =>
  if i = primIx p then .excluded else s i

/-- `PrimIntSet::ANY` (src/typecheck/base_set.rs:524-527). -/
def PrimIntSet.any : PrimIntSet := fun _ => .at 7

/-- `PrimIntSet::to_uint_set` (src/typecheck/base_set.rs:587-590). -/
def PrimIntSet.toUintSet (s : PrimIntSet) : UintSet :=
  Ranks.normalize fun i => s ⟨i.val, by omega⟩

/-- `UintSet::to_prim_int_set` (src/typecheck/base_set.rs:357-370). -/
def UintSet.toPrimIntSet (s : UintSet) : PrimIntSet := fun i =>
  if h : i.val < 4 then s ⟨i.val, h⟩ else .excluded

/-- `IntSet` (src/typecheck/base_set.rs:115-119). -/
inductive IntSet where
  | single (p : MachineRep)
  | z (s : PrimIntSet)

/-- `IntSet::contains` (src/typecheck/base_set.rs:128-133). -/
def IntSet.contains (s : IntSet) (p : MachineRep) : Bool :=
  match s with
  | .single p' => decide (p' = p)
  | .z ps => PrimIntSet.contains ps p

/-- the loop of `IntSet::from_bounds` (src/typecheck/base_set.rs:146-152) -/
def fromBoundsLoop (bounds : Num.Bounds) : List MachineRep → PrimIntSet → Panicky PrimIntSet
  | [], s => .ok s
  | p :: ps, s => do
    let c ← bounds.isEncompassedBy p.asBounds
    fromBoundsLoop bounds ps (if c then s else PrimIntSet.remove s p)

/-- `IntSet::from_bounds` (src/typecheck/base_set.rs:142-160). -/
def IntSet.fromBounds (bounds : Num.Bounds) : Panicky IntSet := do
  let s ← fromBoundsLoop bounds ((List.finRange 8).map primAt) PrimIntSet.any
  let ret := Ranks.normalize s
  match Ranks.asSingleton ret with
  | some i => .ok (.single (primAt i))
  | none => .ok (.z ret)

/-- `IntSet::unify` (src/typecheck/base_set.rs:202-228); `none` is the error. -/
def IntSet.unify (s t : IntSet) : Option IntSet :=
  match s with
  | .single p => if t.contains p then some (.single p) else none
  | .z s0 =>
    match t with
    | .single p => if PrimIntSet.contains s0 p then some (.single p) else none
    | .z s1 => some (.z (Ranks.intersection s0 s1))

/-- `IntSet::is_empty` (src/typecheck/base_set.rs:231-236). -/
def IntSet.isEmpty : IntSet → Bool
  | .single _ => false
  | .z ps => ps.isEmpty

/-- `IntSet::get_unique_solution` (src/typecheck/base_set.rs:240-252). -/
def IntSet.uniqueSolution : IntSet → Solution MachineRep
  | .single p => .found p
  | .z ps =>
    if Ranks.isEmpty ps then .noSolution
    else match Ranks.uniqueSolution ps with
      | some i => .found (primAt i)
      | none => .multiple

/-- `IntSet::try_from_base_set` (src/typecheck/base_set.rs:177-188); `none` is the error. -/
def IntSet.ofBaseSet : BaseSet → Option IntSet
  | .single (.num w) => some (.single ⟨false, w⟩)
  | .single _ => none
  | .u us => some (.z (UintSet.toPrimIntSet us))

/-- `IntSet::to_base_set` (src/typecheck/base_set.rs:190-198); `none` is the error. -/
def IntSet.toBaseSet : IntSet → Option BaseSet
  | .single ⟨false, w⟩ => some (.single (.num w))
  | .single ⟨true, _⟩ => none
  | .z s => some (.u (PrimIntSet.toUintSet s))

end Tc
end Doodle
