import Verif.Model.Outcome
import Verif.Model.NumCore

/-!
Model of src/codegen/rust_ast/analysis.rs and src/codegen/rust_ast/analysis/heap_optimize.rs: what the code generator finds out
about the types it defines, in order to derive `Copy` for them and to comment on their sizes.

Labels, lifetimes and markers are left out: no analysis looks at them.  Machine words have 64 bits.  The answers about
definitions are memoized; the analyses are written for any monad, and run with the table of answers (`Ctx.cached`).

`unreachable!`, `unimplemented!`, `expect`, `unwrap` and an index out of range are `panic`; the overflow of a sum of sizes (a
panic in a debug build) is `err ()`, so that the two can be told apart.
-/

namespace Doodle
namespace TypeAnalysis

open Num (BitWidth)

/-- `enum PrimType` (src/codegen/rust_ast/mod.rs:1293-1299), with `MachineUint` (src/codegen/rust_ast/mod.rs:1274-1279) -/
inductive Prim where
  | unit | bool | char | usize
  | unsigned (w : BitWidth)
deriving DecidableEq, Repr

/-- `enum RustType` with `AtomType`, `CompType` and `LocalType` (src/codegen/rust_ast/mod.rs:697-704, 1116-1125, 1152-1155,
1442-1449) -/
inductive RType where
  | prim (p : Prim)
  | signed (w : BitWidth)
  | localDef (ix : Nat)
  | external
  | vec (t : RType)
  | rawSlice (t : RType)
  | option (t : RType)
  | result (t e : RType)
  | borrow (isMut : Bool) (t : RType)
  | phantomData (t : RType)
  | tuple (ts : List RType)
  | verbatim
  | readArray
  | viewObject

/-- `enum RustVariant` (src/codegen/rust_ast/mod.rs:1073-1076) -/
inductive RVariant where
  | unit
  | tuple (ts : List RType)

/-- `enum RustTypeDef` with `RustStruct` and `RustTypeDecl` (src/codegen/rust_ast/mod.rs:647-650, 660-663, 984-986) -/
inductive TypeDef where
  | enum (vs : List RVariant)
  | struct (fs : List RType)

/-- `HeapStrategy` (src/codegen/rust_ast/analysis/heap_optimize.rs:10-13, 43-66); the cutoffs are not zero -/
structure Strategy where
  absolute : Option Nat
  variant : Option Nat

/-- `HeapStrategy::is_never` (src/codegen/rust_ast/analysis/heap_optimize.rs:43-51) -/
def Strategy.isNever (s : Strategy) : Bool := s.absolute.isNone && s.variant.isNone

/-- `HeapAction` (src/codegen/rust_ast/analysis/heap_optimize.rs:69-93) -/
inductive Action where
  | noop
  | nonLocal
  | directHeap
  | inOption (a : Action)
  | inDef (a : Action)
  | inRecord (fields : List Action)
  | inTuple (pos : List Action)
  | inEnum (variants : List Action)

/-- `HeapAction::is_noop` (src/codegen/rust_ast/analysis/heap_optimize.rs:96-98) -/
def Action.isNoop : Action → Bool
  | .noop => true
  | _ => false

/-- `core::alloc::Layout` -/
structure Layout where
  size : Nat
  align : Nat
deriving DecidableEq, Repr

/-- `HEAP_LAYOUT`, the layout of `Box<str>` (src/codegen/rust_ast/analysis/heap_optimize.rs:107-110) -/
def heapLayout : Layout := ⟨16, 8⟩

/-- `usize::MAX` -/
def usizeMax : Nat := 2 ^ 64 - 1

/-- What an analysis may ask about the definition with a number (`SourceContext::get_niches` and so on,
src/codegen/rust_ast/analysis.rs:92-124), and its ways to fail. -/
structure Ctx (M : Type → Type) where
  niches : Nat → M Nat
  size : Nat → M Nat
  align : Nat → M Nat
  copy : Nat → M Bool
  heap : Nat → M (Action × Layout)
  unreachable : {α : Type} → M α
  overflow : {α : Type} → M α

/-- addition of `usize` -/
def Ctx.add {M : Type → Type} [Monad M] (C : Ctx M) (a b : Nat) : M Nat :=
  if a + b ≤ usizeMax then pure (a + b) else C.overflow

/-- `aligned_size` (src/codegen/rust_ast/analysis.rs:742-744), on words -/
def alignedSize (size align : Nat) : Nat := (size + align - 1) &&& (usizeMax - (align - 1))

/-- `aligned_size` with the overflow of its sum (src/codegen/rust_ast/analysis.rs:742-744); no alignment is zero -/
def Ctx.aligned {M : Type → Type} [Monad M] (C : Ctx M) (size align : Nat) : M Nat :=
  if size + align ≤ usizeMax then pure (alignedSize size align) else C.overflow

/-- `Layout::from_size_align(..).unwrap()`: the alignment must be a power of two, and the size, rounded up, fit an `isize` -/
def Ctx.layout {M : Type → Type} [Monad M] (C : Ctx M) (size align : Nat) : M Layout :=
  if align.isPowerOfTwo then if size + align ≤ 2 ^ 63 then pure ⟨size, align⟩ else C.overflow
  else C.unreachable

/-- `niche_product` (src/codegen/rust_ast/analysis.rs:17-21) -/
def nicheProduct (ns : List Nat) : Nat :=
  ((ns.map fun x => min (x + 1) usizeMax).foldl (fun a b => min (a * b) usizeMax) 1) - 1

/-- `niche_sum` (src/codegen/rust_ast/analysis.rs:23-25) -/
def nicheSum (ns : List Nat) : Nat := ns.foldl (fun a b => min (a + b) usizeMax) 0

/-- `niches` (src/codegen/rust_ast/analysis.rs:292-301); the constant is `UTF16_SCALAR_MAX` as it is written -/
def Prim.niches : Prim → Nat
  | .unit => 0
  | .bool => 254
  | .char => 2 ^ 32 - 1 - 0x10FFF
  | .usize => 0
  | .unsigned _ => 0

/-- `size_hint` (src/codegen/rust_ast/analysis.rs:305-316, 355-362, 396-403) -/
def Prim.size : Prim → Nat
  | .unit => 0
  | .bool => 1
  | .char => 4
  | .usize => 8
  | .unsigned w => w.bits / 8

/-- `align_hint` (src/codegen/rust_ast/analysis.rs:318-329, 364-371, 405-412) -/
def Prim.align : Prim → Nat
  | .unit => 1
  | .bool => 1
  | .char => 4
  | .usize => 8
  | .unsigned w => w.bits / 8

section
variable {M : Type → Type} [Monad M] (C : Ctx M)

mutual
/-- `align_hint` (src/codegen/rust_ast/analysis.rs:189-208, 250-257, 457-466, 541-548) -/
def RType.alignHint : RType → M Nat
  | .prim p => pure p.align
  | .signed w => pure (w.bits / 8)
  | .localDef ix => C.align ix
  | .external => C.unreachable
  | .vec _ => pure 8
  | .rawSlice _ => C.unreachable
  | .option t => RType.alignHint t
  | .result _ _ => C.unreachable
  | .borrow _ _ => pure 8
  | .phantomData _ => pure 1
  | .tuple ts => RType.alignAll ts
  | .verbatim => C.unreachable
  | .readArray => pure 8
  | .viewObject => pure 8

/-- the largest alignment, at least 1 (src/codegen/rust_ast/analysis.rs:192-198, 673-682, 722-730) -/
def RType.alignAll : List RType → M Nat
  | [] => pure 1
  | t :: ts => do
    let a ← RType.alignHint t
    let b ← RType.alignAll ts
    pure (max a b)
end

mutual
/-- `niches` (src/codegen/rust_ast/analysis.rs:140-151, 230-237, 474-492, 520-528) -/
def RType.niches : RType → M Nat
  | .prim p => pure p.niches
  | .signed _ => pure 0
  | .localDef ix => C.niches ix
  | .external => C.unreachable
  | .vec _ => pure usizeMax
  | .rawSlice _ => C.unreachable
  | .option t => do
    let n ← RType.niches t
    if n = 0 then do
      let a ← t.alignHint C
      if 1 ≤ a ∧ a ≤ 7 then pure (2 ^ (8 * a) - 1) else if a = 8 then pure usizeMax else C.unreachable
    else pure (n - 1)
  | .result _ _ => C.unreachable
  | .borrow _ _ => pure 1
  | .phantomData _ => pure 0
  | .tuple ts => do
    let ns ← RType.nichesAll ts
    pure (nicheProduct ns)
  | .verbatim => pure 0
  | .readArray => pure 1
  | .viewObject => pure 1

/-- of each -/
def RType.nichesAll : List RType → M (List Nat)
  | [] => pure []
  | t :: ts => do
    let n ← RType.niches t
    let ns ← RType.nichesAll ts
    pure (n :: ns)
end

mutual
/-- `size_hint` (src/codegen/rust_ast/analysis.rs:155-187, 241-248, 440-455, 532-539) -/
def RType.sizeHint : RType → M Nat
  | .prim p => pure p.size
  | .signed w => pure (w.bits / 8)
  | .localDef ix => C.size ix
  | .external => C.unreachable
  | .vec _ => pure 24
  | .rawSlice _ => C.unreachable
  | .option t => do
    let n ← t.niches C
    let s ← RType.sizeHint t
    if 0 < n then pure s
    else do
      let a ← t.alignHint C
      C.add s a
  | .result _ _ => C.unreachable
  | .borrow _ _ => pure 8
  | .phantomData _ => pure 0
  | .tuple ts => do
    let (s, a) ← RType.sizeAll ts 0 1
    C.aligned s a
  | .verbatim => C.unreachable
  | .readArray => pure 40
  | .viewObject => pure 24

/-- the loop over the components: the sum of the sizes and the largest alignment (src/codegen/rust_ast/analysis.rs:157-166,
658-671, 708-720) -/
def RType.sizeAll : List RType → Nat → Nat → M (Nat × Nat)
  | [], s, a => pure (s, a)
  | t :: ts, s, a => do
    let s' ← RType.sizeHint t
    let s'' ← C.add s s'
    let a' ← t.alignHint C
    RType.sizeAll ts s'' (max a a')
end

mutual
/-- `copy_hint` (src/codegen/rust_ast/analysis.rs:212-222, 261-268, 333-339, 375-380, 416-421, 500-512, 552-561) -/
def RType.copyHint : RType → M Bool
  | .prim _ => pure true
  | .signed _ => pure true
  | .localDef ix => C.copy ix
  | .external => C.unreachable
  | .vec _ => pure false
  | .rawSlice _ => C.unreachable
  | .option t => RType.copyHint t
  | .result t e => do
    let b ← RType.copyHint t
    if b then RType.copyHint e else pure false
  | .borrow true _ => C.unreachable
  | .borrow false _ => pure true
  | .phantomData _ => pure true
  | .tuple ts => RType.copyAll ts
  | .verbatim => C.unreachable
  | .readArray => pure true
  | .viewObject => pure true

/-- `Iterator::all`, which stops at the first that is not -/
def RType.copyAll : List RType → M Bool
  | [] => pure true
  | t :: ts => do
    let b ← RType.copyHint t
    if b then RType.copyAll ts else pure false
end

/-- (src/codegen/rust_ast/analysis.rs:649-654) -/
def RVariant.niches : RVariant → M Nat
  | .unit => pure 0
  | .tuple ts => do
    let ns ← RType.nichesAll C ts
    pure (nicheProduct ns)

/-- (src/codegen/rust_ast/analysis.rs:658-671) -/
def RVariant.sizeHint : RVariant → M Nat
  | .unit => pure 0
  | .tuple ts => do
    let (s, a) ← RType.sizeAll C ts 0 1
    C.aligned s a

/-- (src/codegen/rust_ast/analysis.rs:673-682) -/
def RVariant.alignHint : RVariant → M Nat
  | .unit => pure 1
  | .tuple ts => RType.alignAll C ts

/-- (src/codegen/rust_ast/analysis.rs:686-691) -/
def RVariant.copyHint : RVariant → M Bool
  | .unit => pure true
  | .tuple ts => RType.copyAll C ts

/-- of each variant -/
def RVariant.nichesAll : List RVariant → M (List Nat)
  | [] => pure []
  | v :: vs => do
    let n ← v.niches C
    let ns ← RVariant.nichesAll vs
    pure (n :: ns)

/-- the largest size, 0 if there is none (src/codegen/rust_ast/analysis.rs:611) -/
def RVariant.sizeMax : List RVariant → M Nat
  | [] => pure 0
  | v :: vs => do
    let s ← v.sizeHint C
    let s' ← RVariant.sizeMax vs
    pure (max s s')

/-- the largest alignment, 1 if there is none (src/codegen/rust_ast/analysis.rs:612-617, 624-631) -/
def RVariant.alignMax : List RVariant → M Nat
  | [] => pure 1
  | v :: vs => do
    let s ← v.alignHint C
    let s' ← RVariant.alignMax vs
    pure (max s s')

/-- `Iterator::all` (src/codegen/rust_ast/analysis.rs:638) -/
def RVariant.copyAll : List RVariant → M Bool
  | [] => pure true
  | v :: vs => do
    let b ← v.copyHint C
    if b then RVariant.copyAll vs else pure false

/-- `niches` (src/codegen/rust_ast/analysis.rs:569-571, 595-601, 699-704) -/
def TypeDef.niches : TypeDef → M Nat
  | .struct fs => do
    let ns ← RType.nichesAll C fs
    pure (nicheProduct ns)
  | .enum vs => do
    let ns ← RVariant.nichesAll C vs
    pure (nicheSum ns)

/-- `size_hint` (src/codegen/rust_ast/analysis.rs:575-577, 605-621, 708-720) -/
def TypeDef.sizeHint : TypeDef → M Nat
  | .struct fs => do
    let (s, a) ← RType.sizeAll C fs 0 1
    C.aligned s a
  | .enum vs => do
    let s ← RVariant.sizeMax C vs
    let a ← RVariant.alignMax C vs
    let s' ← C.add s 1
    C.aligned s' a

/-- `align_hint` (src/codegen/rust_ast/analysis.rs:579-581, 623-632, 722-730) -/
def TypeDef.alignHint : TypeDef → M Nat
  | .struct fs => RType.alignAll C fs
  | .enum vs => RVariant.alignMax C vs

/-- `copy_hint` (src/codegen/rust_ast/analysis.rs:585-587, 636-641, 734-738) -/
def TypeDef.copyHint : TypeDef → M Bool
  | .struct fs => RType.copyAll C fs
  | .enum vs => RVariant.copyAll C vs

/-- `mk_layout` (src/codegen/rust_ast/analysis/heap_optimize.rs:119-124) -/
def RType.mkLayout (t : RType) : M Layout := do
  let s ← t.sizeHint C
  let a ← t.alignHint C
  C.layout s a

/-- `mk_layout` -/
def RVariant.mkLayout (v : RVariant) : M Layout := do
  let s ← v.sizeHint C
  let a ← v.alignHint C
  C.layout s a

/-- `mk_layout` -/
def TypeDef.mkLayout (d : TypeDef) : M Layout := do
  let s ← d.sizeHint C
  let a ← d.alignHint C
  C.layout s a

variable (st : Strategy)

/-- a reference to a definition (src/codegen/rust_ast/analysis/heap_optimize.rs:257-289) -/
def localHint (ix : Nat) : M (Action × Layout) := do
  let (act, lay) ← C.heap ix
  if st.absolute.any (· ≤ lay.size) then pure (.directHeap, heapLayout)
  else match act with
    | .noop => pure (.noop, lay)
    | .nonLocal => pure (.nonLocal, lay)
    | .inRecord fs => pure (.inDef (.inRecord fs), lay)
    | .inEnum vs => pure (.inDef (.inEnum vs), lay)
    | _ => C.unreachable

/-- what becomes of an `Option` (src/codegen/rust_ast/analysis/heap_optimize.rs:229-246) -/
def optionHint (t : RType) (act : Action) : M (Action × Layout) :=
  match act with
  | .noop => do
    let l ← (RType.option t).mkLayout C
    pure (.noop, l)
  | .nonLocal => pure (.inOption .nonLocal, heapLayout)
  | .inDef a => pure (.inOption (.inDef a), heapLayout)
  | .directHeap => pure (.inOption .directHeap, heapLayout)
  | .inTuple l => pure (.inOption (.inTuple l), heapLayout)
  | .inEnum _ => C.unreachable
  | .inRecord _ => C.unreachable
  | .inOption _ => C.unreachable

/-- what becomes of a tuple with these components (src/codegen/rust_ast/analysis/heap_optimize.rs:176-194, 407-425) -/
def tupleHint (r : List Action × Nat × Nat) : M (Action × Layout) := do
  let size ← C.aligned r.2.1 r.2.2
  if st.absolute.any (· < size) then pure (.directHeap, heapLayout)
  else do
    let l ← C.layout size r.2.2
    pure (if r.1.all Action.isNoop then .noop else .inTuple r.1, l)

/-- An unchanged type, if the strategy is to change nothing.  -/
def unchanged (l : M Layout) : M (Action × Layout) := do
  let l ← l
  pure (.noop, l)

mutual
/-- `heap_hint` (src/codegen/rust_ast/analysis/heap_optimize.rs:157-200, 203-212, 214-255) -/
def RType.heapHint : RType → M (Action × Layout)
  | .readArray => unchanged (RType.readArray.mkLayout C)
  | .viewObject => unchanged (RType.viewObject.mkLayout C)
  | .prim p => unchanged ((RType.prim p).mkLayout C)
  | .signed w => unchanged ((RType.signed w).mkLayout C)
  | .vec t => unchanged ((RType.vec t).mkLayout C)
  | .option t => do
    let r ← RType.heapHint t
    optionHint C t r.1
  | .result _ _ => C.unreachable
  | .borrow b t => unchanged ((RType.borrow b t).mkLayout C)
  | .rawSlice _ => C.unreachable
  | .phantomData t => unchanged ((RType.phantomData t).mkLayout C)
  | .localDef ix => localHint C st ix
  | .external => C.unreachable
  | .tuple ts =>
    if st.isNever then unchanged ((RType.tuple ts).mkLayout C)
    else do
      let r ← RType.heapAll ts 0 1
      tupleHint C st r
  | .verbatim => C.unreachable

/-- the loop over the components: what becomes of each, the sum of the sizes and the largest alignment
(src/codegen/rust_ast/analysis/heap_optimize.rs:131-141, 165-175, 396-406) -/
def RType.heapAll : List RType → Nat → Nat → M (List Action × Nat × Nat)
  | [], s, a => pure ([], s, a)
  | t :: ts, s, a => do
    let r ← RType.heapHint t
    let s' ← C.add s r.2.size
    let q ← RType.heapAll ts s' (max a r.2.align)
    pure (r.1 :: q.1, q.2)
end

/-- `heap_hint` (src/codegen/rust_ast/analysis/heap_optimize.rs:385-428) -/
def RVariant.heapHint : RVariant → M (Action × Layout)
  | .unit => do
    let l ← C.layout 0 1
    pure (.noop, l)
  | .tuple ts =>
    if st.isNever then unchanged ((RVariant.tuple ts).mkLayout C)
    else do
      let r ← RType.heapAll C st ts 0 1
      tupleHint C st r

/-- the loop over the variants (src/codegen/rust_ast/analysis/heap_optimize.rs:307-314, 353-359) -/
def RVariant.heapAll : List RVariant → M (List (Action × Layout))
  | [] => pure []
  | v :: vs => do
    let r ← v.heapHint C st
    let q ← RVariant.heapAll vs
    pure (r :: q)

/-- the smallest size -/
def minSize : List (Action × Layout) → Option Nat
  | [] => none
  | r :: rs => some (match minSize rs with
    | none => r.2.size
    | some n => min r.2.size n)

/-- the largest size, starting from `n` -/
def maxSize (n : Nat) (rs : List (Action × Layout)) : Nat := rs.foldl (fun a r => max a r.2.size) n

/-- the largest alignment -/
def maxAlign (rs : List (Action × Layout)) : Nat := rs.foldl (fun a r => max a r.2.align) 1

/-- the layout of an enumeration with a tag of one byte (src/codegen/rust_ast/analysis/heap_optimize.rs:339-345, 366-371) -/
def enumLayout (rs : List (Action × Layout)) : M Layout := do
  let s ← C.add (maxSize 0 rs) 1
  let s' ← C.aligned s (maxAlign rs)
  C.layout s' (maxAlign rs)

/-- `heap_hint` (src/codegen/rust_ast/analysis/heap_optimize.rs:125-154, 291-382) -/
def TypeDef.heapHint : TypeDef → M (Action × Layout)
  | .struct fs =>
    if st.isNever then unchanged ((TypeDef.struct fs).mkLayout C)
    else do
      let r ← RType.heapAll C st fs 0 1
      let size ← C.aligned r.2.1 r.2.2
      let l ← C.layout size r.2.2
      pure (if r.1.all Action.isNoop then .noop else .inRecord r.1, l)
  | .enum vs =>
    match st.variant with
    | some delta => do
      let rs ← RVariant.heapAll C st vs
      match minSize rs with
      | none => C.unreachable
      | some least => do
        let cut ← C.add least delta
        if rs.any (fun r => cut ≤ r.2.size) then do
          let rs' := rs.map fun r => if cut ≤ r.2.size then (Action.directHeap, heapLayout) else r
          let l ← C.layout (maxSize least rs') heapLayout.align
          pure (.inEnum (rs'.map (·.1)), l)
        else if rs.all (·.1.isNoop) then unchanged ((TypeDef.enum vs).mkLayout C)
        else do
          let l ← enumLayout C rs
          pure (.nonLocal, l)
    | none =>
      if st.absolute.isSome then do
        let rs ← RVariant.heapAll C st vs
        if rs.all (·.1.isNoop) then unchanged ((TypeDef.enum vs).mkLayout C)
        else do
          let l ← enumLayout C rs
          pure (.inEnum (rs.map (·.1)), l)
      else unchanged ((TypeDef.enum vs).mkLayout C)

end

/-! ### with and without the table of answers -/

/-- the analyses of definitions, without a table: the definitions that are referred to are analysed again and again -/
def Ctx.plain (defs : List TypeDef) (st : Strategy) : Nat → Ctx (Outcome Unit)
  | 0 => ⟨fun _ => .fuel, fun _ => .fuel, fun _ => .fuel, fun _ => .fuel, fun _ => .fuel, .panic, .err ()⟩
  | n + 1 =>
    let C := Ctx.plain defs st n
    let on {α : Type} (f : TypeDef → Outcome Unit α) (ix : Nat) : Outcome Unit α :=
      match defs[ix]? with
      | some d => f d
      | none => .panic
    ⟨on (TypeDef.niches C), on (TypeDef.sizeHint C), on (TypeDef.alignHint C), on (TypeDef.copyHint C),
      on (TypeDef.heapHint C st), .panic, .err ()⟩

/-- `CacheEntry` (src/codegen/rust_ast/analysis.rs:48-57), without the width -/
structure Entry where
  copy : Option Bool := none
  niches : Option Nat := none
  size : Option Nat := none
  align : Option Nat := none
  heap : Option (Action × Layout) := none

/-- the table (src/codegen/rust_ast/analysis.rs:59-62); a key that is not there is like one without answers -/
abbrev Cache := Nat → Entry

/-- computations that use and change the table -/
def Cached (α : Type) : Type := Cache → Outcome Unit (α × Cache)

instance : Monad Cached where
  pure a := fun c => .ok (a, c)
  bind x f := fun c => match x c with
    | .ok (a, c') => f a c'
    | .err e => .err e
    | .panic => .panic
    | .fuel => .fuel

/-- `cache_get!` (src/codegen/rust_ast/analysis.rs:64-90): the answer of the table, or else the answer that is computed, which is
stored.  `get` and `set` are the access to the field. -/
def cacheGet {α : Type} (get : Entry → Option α) (set : Entry → α → Entry) (ix : Nat) (compute : Cached α) : Cached α := fun c =>
  match get (c ix) with
  | some a => .ok (a, c)
  | none => match compute c with
    | .ok (a, c') => .ok (a, fun i => if i = ix then set (c' i) a else c' i)
    | .err e => .err e
    | .panic => .panic
    | .fuel => .fuel

/-- `SourceContext` (src/codegen/rust_ast/analysis.rs:59-62, 92-124).  The answers about the heap do not tell which strategy they
are for, as in the code; here there is only one. -/
def Ctx.cached (defs : List TypeDef) (st : Strategy) : Nat → Ctx Cached
  | 0 => ⟨fun _ _ => .fuel, fun _ _ => .fuel, fun _ _ => .fuel, fun _ _ => .fuel, fun _ _ => .fuel, fun _ => .panic, fun _ => .err ()⟩
  | n + 1 =>
    let C := Ctx.cached defs st n
    let on {α : Type} (f : TypeDef → Cached α) (ix : Nat) : Cached α :=
      match defs[ix]? with
      | some d => f d
      | none => fun _ => .panic
    ⟨fun ix => cacheGet (·.niches) (fun e a => { e with niches := some a }) ix (on (TypeDef.niches C) ix),
      fun ix => cacheGet (·.size) (fun e a => { e with size := some a }) ix (on (TypeDef.sizeHint C) ix),
      fun ix => cacheGet (·.align) (fun e a => { e with align := some a }) ix (on (TypeDef.alignHint C) ix),
      fun ix => cacheGet (·.copy) (fun e a => { e with copy := some a }) ix (on (TypeDef.copyHint C) ix),
      fun ix => cacheGet (·.heap) (fun e a => { e with heap := some a }) ix (on (TypeDef.heapHint C st) ix),
      fun _ => .panic, fun _ => .err ()⟩

/-- the empty table (src/codegen/rust_ast/analysis.rs:126-133) -/
def emptyCache : Cache := fun _ => {}

/-! ### without the definitions -/

mutual
/-- `RustType::can_be_copy` (src/codegen/rust_ast/mod.rs:915-941) -/
def RType.canBeCopy : RType → Panicky Bool
  | .prim _ => .ok true
  | .signed _ => .ok true
  | .localDef _ => .ok false
  | .external => .ok false
  | .vec _ => .ok false
  | .rawSlice _ => .panic
  | .option t => RType.canBeCopy t
  | .result t e => do
    let b ← RType.canBeCopy t
    if b then RType.canBeCopy e else pure false
  | .borrow m _ => .ok (!m)
  | .phantomData _ => .ok true
  | .tuple ts => RType.canAllBeCopy ts
  | .verbatim => .ok false
  | .readArray => .ok true
  | .viewObject => .ok true

/-- `Iterator::all` -/
def RType.canAllBeCopy : List RType → Panicky Bool
  | [] => .ok true
  | t :: ts => do
    let b ← RType.canBeCopy t
    if b then RType.canAllBeCopy ts else pure false
end

/-- `RustVariant::can_be_copy` (src/codegen/rust_ast/mod.rs:1089-1094) -/
def RVariant.canBeCopy : RVariant → Panicky Bool
  | .unit => .ok true
  | .tuple ts => RType.canAllBeCopy ts

/-- `Iterator::all` -/
def RVariant.canAllBeCopy : List RVariant → Panicky Bool
  | [] => .ok true
  | v :: vs => do
    let b ← v.canBeCopy
    if b then RVariant.canAllBeCopy vs else pure false

/-- `RustTypeDef::can_be_copy`, `RustStruct::can_be_copy` (src/codegen/rust_ast/mod.rs:686-691, 990-994) -/
def TypeDef.canBeCopy : TypeDef → Panicky Bool
  | .struct fs => RType.canAllBeCopy fs
  | .enum vs => RVariant.canAllBeCopy vs

end TypeAnalysis
end Doodle
