import Verif.Model.Compile
import Verif.Model.TypedFormat

/-!
Model of the compiler that code generation uses (`GTCompiler`, /repo/src/codegen/typed_decoder.rs:255-770)
and of the prefix trees it builds, whose continuations contain typed formats
(/repo/src/lib.rs:1363-1398, 1632-1965).

* The result is a list of `Decoder`s, as for the interpreter's compiler: a `TypedDecoder` without its types, hints
  and signatures.  What the generated code does for a decoder is the subject of C50.
* The operations on steps and levels of a prefix tree (/repo/src/lib.rs:1424-1530, 2157-2307) never look inside
  continuations.  They are modelled once more here, for any type `N` of continuations, because `Next` of
  Model/MatchTree.lean has no typed formats.
* The order of a hash set is again a parameter, as is the recursion bound for `from_next`.
-/

namespace Doodle

/-- the continuations that operations on steps make from other continuations -/
structure Conts (N : Type) where
  empty : N
  union : N → N → N
  peek : N → N → N
  peekNot : N → N → N
  slice : Nat → N → N → N

/-- `struct MatchTreeStep` (src/lib.rs:1401-1405). -/
structure GStep (N : Type) where
  accept : Bool
  branches : List (ByteSet × N)

namespace GStep
variable {N : Type}

/-- `MatchTreeStep::reject` (src/lib.rs:1426-1431). -/
def reject : GStep N := ⟨false, []⟩
/-- `MatchTreeStep::accept` (src/lib.rs:1434-1439). -/
def acceptAll : GStep N := ⟨true, []⟩
/-- `MatchTreeStep::branch` (src/lib.rs:1442-1447). -/
def branch (bs : ByteSet) (next : N) : GStep N := ⟨false, [(bs, next)]⟩

/-- The loop of `union_branch` (src/lib.rs:1452-1463) over the existing branches; the result is the
modified branches, the bytes of `bs` left over, and the queue `branches`. -/
def splitBranches (K : Conts N) (next : N) : ByteSet → List (ByteSet × N) →
    List (ByteSet × N) × ByteSet × List (ByteSet × N)
  | bs, [] => ([], bs, [])
  | bs, (bs0, next0) :: rest =>
    let common := bs0.intersection bs
    if common.isEmpty then
      let r := splitBranches K next bs rest
      ((bs0, next0) :: r.1, r.2.1, r.2.2)
    else
      let orig := bs0.difference bs
      let r := splitBranches K next (bs.difference common) rest
      ((common, K.union next0 next) :: r.1, r.2.1,
        if orig.isEmpty then r.2.2 else (orig, next0) :: r.2.2)

/-- `MatchTreeStep::union_branch` (src/lib.rs:1450-1468). -/
def unionBranch (K : Conts N) (s : GStep N) (bs : ByteSet) (next : N) : GStep N :=
  let r := splitBranches K next bs s.branches
  { s with branches := r.1 ++ (if r.2.1.isEmpty then [] else [(r.2.1, next)]) ++ r.2.2 }

/-- the loop `for (bs, next) in other.branches` (src/lib.rs:1473-1475) -/
def unionBranches (K : Conts N) : GStep N → List (ByteSet × N) → GStep N
  | s, [] => s
  | s, (bs, next) :: rest => unionBranches K (s.unionBranch K bs next) rest

/-- `MatchTreeStep::union` (src/lib.rs:1471-1477). -/
def union (K : Conts N) (s other : GStep N) : GStep N :=
  unionBranches K { s with accept := s.accept || other.accept } other.branches

/-- the inner loop of `peek` (src/lib.rs:1492-1498) -/
def peekBranch (K : Conts N) (bs1 : ByteSet) (next1 : N) : List (ByteSet × N) → List (ByteSet × N)
  | [] => []
  | (bs2, next2) :: rest =>
    if (bs1.intersection bs2).isEmpty then peekBranch K bs1 next1 rest
    else (bs1.intersection bs2, K.peek next1 next2) :: peekBranch K bs1 next1 rest

/-- `MatchTreeStep::peek` (src/lib.rs:1481-1503). -/
def peek (K : Conts N) (s p : GStep N) : GStep N :=
  if p.accept then s
  else if s.accept then ⟨p.accept, p.branches⟩
  else { s with branches := s.branches.flatMap fun b => peekBranch K b.1 b.2 p.branches }

/-- the inner loop of `peek_not` (src/lib.rs:1515-1522): the new branches and what is left of `diff` -/
def peekNotBranch (K : Conts N) (bs1 : ByteSet) (next1 : N) : ByteSet → List (ByteSet × N) →
    List (ByteSet × N) × ByteSet
  | diff, [] => ([], diff)
  | diff, (bs2, next2) :: rest =>
    let r := peekNotBranch K bs1 next1 (diff.difference bs2) rest
    if (bs1.intersection bs2).isEmpty then r
    else ((bs1.intersection bs2, K.peekNot next1 next2) :: r.1, r.2)

/-- `MatchTreeStep::peek_not` (src/lib.rs:1507-1530). -/
def peekNot (K : Conts N) (s p : GStep N) : GStep N :=
  if p.accept then ⟨false, []⟩
  else
    { s with
      branches := s.branches.flatMap fun b =>
        let r := peekNotBranch K b.1 b.2 b.1 p.branches
        r.1 ++ (if r.2.isEmpty then [] else [(r.2, b.2)]) }

/-- What `from_slice` makes of the step of the inside, for `n > 0` (src/lib.rs:1614-1626). -/
def inSlice (K : Conts N) (s : GStep N) (n : Nat) (next : N) : GStep N :=
  if s.branches.isEmpty then ⟨false, [(ByteSet.full, K.slice (n - 1) K.empty next)]⟩
  else ⟨false, s.branches.map fun b => (b.1, K.slice (n - 1) b.2 next)⟩

end GStep

/-- `type LevelBranch = HashSet<(usize, Rc<Next>)>` (src/lib.rs:1414-1415), as a list. -/
abbrev GLevelBranch (N : Type) := List (Nat × N)

/-- Choice of the iteration order of the hash set at the node reached by a path (positions of the
branches taken, innermost first). -/
abbrev GHashOrder (N : Type) := List Nat → GLevelBranch N → GLevelBranch N

/-- A hash set yields its elements, all of them and nothing else, in some order. -/
def GHashOrder.Valid {N : Type} (ord : GHashOrder N) : Prop := ∀ path l x, x ∈ ord path l ↔ x ∈ l

/-- `struct MatchTreeLevel` (src/lib.rs:1408-1412). -/
structure GLevel (N : Type) where
  accept : Option Nat
  branches : List (ByteSet × GLevelBranch N)

namespace GLevel
variable {N : Type}

/-- `MatchTreeLevel::reject` (src/lib.rs:2159-2164). -/
def reject : GLevel N := ⟨none, []⟩

/-- `merge_accept` (src/lib.rs:2169-2178); `none` is `Err(())`. -/
def mergeAccept (acc : Option Nat) (index : Nat) : Option (Option Nat) :=
  match acc with
  | none => some (some index)
  | some i => if i = index then some (some i) else none

/-- The loop of `merge_branch` (src/lib.rs:2184-2199) over the existing branches, cf.
`GStep.splitBranches`. -/
def splitBranches (entry : Nat × N) : ByteSet → List (ByteSet × GLevelBranch N) →
    List (ByteSet × GLevelBranch N) × ByteSet × List (ByteSet × GLevelBranch N)
  | bs, [] => ([], bs, [])
  | bs, (bs0, nexts) :: rest =>
    let common := bs0.intersection bs
    if common.isEmpty then
      let r := splitBranches entry bs rest
      ((bs0, nexts) :: r.1, r.2.1, r.2.2)
    else
      let orig := bs0.difference bs
      let r := splitBranches entry (bs.difference common) rest
      ((common, nexts ++ [entry]) :: r.1, r.2.1,
        if orig.isEmpty then r.2.2 else (orig, nexts) :: r.2.2)

/-- `merge_branch` (src/lib.rs:2181-2210). -/
def mergeBranch (branches : List (ByteSet × GLevelBranch N)) (index : Nat) (bs : ByteSet) (next : N) :
    List (ByteSet × GLevelBranch N) :=
  let r := splitBranches (index, next) bs branches
  r.1 ++ (if r.2.1.isEmpty then [] else [(r.2.1, [(index, next)])]) ++ r.2.2

/-- the loop `for (bs, next) in step.branches` (src/lib.rs:2221-2223) -/
def mergeBranches (index : Nat) : List (ByteSet × GLevelBranch N) → List (ByteSet × N) →
    List (ByteSet × GLevelBranch N)
  | acc, [] => acc
  | acc, (bs, next) :: rest => mergeBranches index (mergeBranch acc index bs next) rest

/-- `merge_step` (src/lib.rs:2213-2225). -/
def mergeStep (l : GLevel N) (index : Nat) (s : GStep N) : Option (GLevel N) :=
  if s.accept then
    match mergeAccept l.accept index with
    | none => none
    | some a => some ⟨a, mergeBranches index l.branches s.branches⟩
  else some ⟨l.accept, mergeBranches index l.branches s.branches⟩

/-- the loop of `accepts` (src/lib.rs:2234-2237) -/
def acceptsLoop : Option Nat → GLevelBranch N → Option (Option Nat)
  | acc, [] => some acc
  | acc, (i, _) :: rest =>
    match mergeAccept acc i with
    | none => none
    | some a => acceptsLoop a rest

/-- `accepts` (src/lib.rs:2233-2242). -/
def accepts (nexts : GLevelBranch N) : Option MatchTree :=
  match acceptsLoop none nexts with
  | none => none
  | some a => some (.node a [])

/-- one step of a stable insertion sort by index -/
def insertByIx (x : Nat × N) : GLevelBranch N → GLevelBranch N
  | [] => [x]
  | y :: ys => if x.1 ≤ y.1 then x :: y :: ys else y :: insertByIx x ys

/-- `tmp.sort_by_key(|(ix, _)| *ix)` (src/lib.rs:2257), a stable sort. -/
def sortByIx : GLevelBranch N → GLevelBranch N
  | [] => []
  | x :: xs => insertByIx x (sortByIx xs)

/-- The loop merging the steps of all entries (src/lib.rs:2258-2261); `none` is the early return. -/
def mergeAll (step : N → Run (GStep N)) : GLevel N → GLevelBranch N → Run (Option (GLevel N))
  | l, [] => .ok (some l)
  | l, (i, next) :: rest => do
    let s ← step next
    match l.mergeStep i s with
    | none => .ok none
    | some l' => mergeAll step l' rest

/-- The loop over the branches of a level (src/lib.rs:2262-2266); `pos` counts the branches. -/
def growBranches (grow : Nat → GLevelBranch N → Run (Option MatchTree)) :
    Nat → List (ByteSet × GLevelBranch N) → Run (Option (List (ByteSet × MatchTree)))
  | _, [] => .ok (some [])
  | pos, (bs, nexts) :: rest => do
    let t ← grow pos nexts
    match t with
    | none => .ok none
    | some t => do
      let ts ← growBranches grow (pos + 1) rest
      match ts with
      | none => .ok none
      | some ts => .ok (some ((bs, t) :: ts))

/-- `MatchTreeLevel::grow` (src/lib.rs:2251-2275). -/
def grow (step : N → Run (GStep N)) (ord : GHashOrder N) :
    Nat → List Nat → GLevelBranch N → Run (Option MatchTree)
  | depth, path, nexts =>
    match accepts (ord path nexts) with
    | some t => .ok (some t)
    | none =>
      match depth with
      | 0 => .ok none
      | depth + 1 => do
        let l ← mergeAll step reject (sortByIx (ord path nexts))
        match l with
        | none => .ok none
        | some l => do
          let bs ← growBranches (fun pos nexts => grow step ord depth (pos :: path) nexts) 0 l.branches
          match bs with
          | none => .ok none
          | some bs => .ok (some (.node l.accept bs))

end GLevel

/-- `for f in branches { tree = tree.union(..) }` (src/lib.rs:1755-1759, 1987-1993). -/
def GStep.unionAll {N α : Type} (K : Conts N) (step : α → Run (GStep N)) : GStep N → List α → Run (GStep N)
  | s, [] => .ok s
  | s, f :: fs => do
    let t ← step f
    GStep.unionAll K step (s.union K t) fs

/-- `MTFormatRef` (src/lib.rs:1363-1378). -/
inductive MTFormat (τ : Type) where
  | untyped (f : Format)
  | typed (f : TFormat τ)

/-- `MTFormatSlice` (src/lib.rs:1363-1379). -/
inductive MTSlice (τ : Type) where
  | untyped (fs : List Format)
  | typed (fs : List (TFormat τ))

/-- `enum Next` (src/lib.rs:1386-1398) with typed and untyped formats. -/
inductive TNext (τ : Type) where
  | empty
  | union (a b : TNext τ)
  | cat (f : MTFormat τ) (next : TNext τ)
  | sequence (fs : MTSlice τ) (next : TNext τ)
  | repeat_ (f : MTFormat τ) (next : TNext τ)
  | repeatCount (n : Nat) (f : MTFormat τ) (next : TNext τ)
  | repeatMax (n : Nat) (f : MTFormat τ) (next : TNext τ)
  | repeatBetween (n m : Nat) (f : MTFormat τ) (next : TNext τ)
  | slice (n : Nat) (inside next : TNext τ)
  | peek (a b : TNext τ)
  | peekNot (a b : TNext τ)

/-- the constructors of `Next` that operations on steps use -/
def TNext.conts (τ : Type) : Conts (TNext τ) := ⟨.empty, .union, .peek, .peekNot, .slice⟩

/-- `MatchTreeStep::from_mt_format` (src/lib.rs:1724-1734): `u` and `t` are `from_format` and `from_gt_format` for
the same `next`. -/
def MTFormat.fold {τ β : Type} (u : Format → β) (t : TFormat τ → β) : MTFormat τ → β
  | .untyped f => u f
  | .typed f => t f

section
variable {τ : Type}

mutual

/-- `MatchTreeStep::from_next` (src/lib.rs:1632-1722), with `from_slice` (src/lib.rs:1608-1630). -/
def TNext.step (m : Module) : Nat → TNext τ → Run (GStep (TNext τ))
  | 0, _ => .fuel
  | n + 1, next =>
    match next with
    | .empty => .ok GStep.acceptAll
    | .union a b => do
      let t1 ← TNext.step m n a
      let t2 ← TNext.step m n b
      .ok (t1.union (TNext.conts τ) t2)
    | .cat f next => f.fold (fun f' => Format.stepT m n f' next) (fun f' => TFormat.step m n f' next)
    | .sequence (.untyped []) next => TNext.step m n next
    | .sequence (.untyped (f :: fs)) next => Format.stepT m n f (.sequence (.untyped fs) next)
    | .sequence (.typed []) next => TNext.step m n next
    | .sequence (.typed (f :: fs)) next => TFormat.step m n f (.sequence (.typed fs) next)
    | .repeat_ f next0 => do
      let t ← TNext.step m n next0
      let u ← f.fold (fun f' => Format.stepT m n f' (.repeat_ f next0)) (fun f' => TFormat.step m n f' (.repeat_ f next0))
      .ok (t.union (TNext.conts τ) u)
    | .repeatBetween min max f next0 =>
      if min = max then .panic
      else if 0 < min then
        if max = 0 then .panic
        else f.fold (fun f' => Format.stepT m n f' (.repeatBetween (min - 1) (max - 1) f next0)) (fun f' => TFormat.step m n f' (.repeatBetween (min - 1) (max - 1) f next0))
      else TNext.step m n (.repeatMax max f next0)
    | .repeatMax k f next0 =>
      if k = 0 then TNext.step m n next0
      else do
        let t ← TNext.step m n next0
        let u ← f.fold (fun f' => Format.stepT m n f' (.repeatMax (k - 1) f next0)) (fun f' => TFormat.step m n f' (.repeatMax (k - 1) f next0))
        .ok (t.union (TNext.conts τ) u)
    | .repeatCount k f next0 =>
      if 0 < k then f.fold (fun f' => Format.stepT m n f' (.repeatCount (k - 1) f next0)) (fun f' => TFormat.step m n f' (.repeatCount (k - 1) f next0))
      else TNext.step m n next0
    | .slice k inside next0 =>
      if 0 < k then do
        let t ← TNext.step m n inside
        .ok (t.inSlice (TNext.conts τ) k next0)
      else TNext.step m n next0
    | .peek a b => do
      let t1 ← TNext.step m n a
      let t2 ← TNext.step m n b
      .ok (t1.peek (TNext.conts τ) t2)
    | .peekNot a b => do
      let t1 ← TNext.step m n a
      let t2 ← TNext.step m n b
      .ok (t1.peekNot (TNext.conts τ) t2)

/-- `MatchTreeStep::from_format` (src/lib.rs:1968-2139), with `from_sequential`, `from_repeat_count`,
`from_repeat_between`, `from_slice` (src/lib.rs:1533-1630) and `from_align` (src/lib.rs:2143-2155). -/
def Format.stepT (m : Module) : Nat → Format → TNext τ → Run (GStep (TNext τ))
  | 0, _, _ => .fuel
  | n + 1, f, next =>
    match f with
    | .itemVar level _ _ => do
      let i ← Outcome.ofPanicky (m.get level)
      Format.stepT m n i.format next
    | .phantom _ => .ok GStep.acceptAll
    | .fail => .ok GStep.reject
    | .endOfInput => .ok GStep.acceptAll
    | .skipRemainder => .ok GStep.acceptAll
    | .align k =>
      if k = 0 then .panic
      else if k = 1 then TNext.step m n next
      else .ok GStep.acceptAll
    | .decodeBytes _ _ => TNext.step m n next
    | .parseFromView _ _ => TNext.step m n next
    | .byte bs => .ok (GStep.branch bs next)
    | .variant _ f => Format.stepT m n f next
    | .union fs => GStep.unionAll (TNext.conts τ) (fun f => Format.stepT m n f next) GStep.reject fs
    | .unionNondet fs => GStep.unionAll (TNext.conts τ) (fun f => Format.stepT m n f next) GStep.reject fs
    | .sequence [] => TNext.step m n next
    | .sequence (f :: fs) => Format.stepT m n f (.sequence (.untyped fs) next)
    | .tuple [] => TNext.step m n next
    | .tuple (f :: fs) => Format.stepT m n f (.sequence (.untyped fs) next)
    | .repeat_ a => do
      let t ← TNext.step m n next
      let u ← Format.stepT m n a (.repeat_ (.untyped a) next)
      .ok (t.union (TNext.conts τ) u)
    | .forEach _ _ a => do
      let t ← TNext.step m n next
      let b ← Outcome.ofPanicky (a.matchBounds m)
      if b.min = 0 then
        if b.max = some 0 then .ok t else .ok GStep.acceptAll
      else do
        let u ← Format.stepT m n a (.repeat_ (.untyped a) next)
        .ok (t.union (TNext.conts τ) u)
    | .repeat1 a => Format.stepT m n a (.repeat_ (.untyped a) next)
    | .repeatCount e a => do
      let b ← Outcome.ofPanicky e.bounds
      match b.asExact with
      | some k => TNext.step m n (.repeatCount k (.untyped a) next)
      | none => TNext.step m n (.repeatCount b.min (.untyped a) .empty)
    | .repeatBetween x y a => do
      let bx ← Outcome.ofPanicky x.bounds
      let by_ ← Outcome.ofPanicky y.bounds
      match bx.asExact, by_.asExact with
      | some min, some max =>
        if min < max then
          if 0 < min then Format.stepT m n a (.repeatBetween (min - 1) (max - 1) (.untyped a) next)
          else TNext.step m n (.repeatMax max (.untyped a) next)
        else if min = max then TNext.step m n (.repeatCount min (.untyped a) next)
        else .panic
      | _, _ => .panic
    | .repeatUntilLast _ _ => .ok GStep.acceptAll
    | .repeatUntilSeq _ _ => .ok GStep.acceptAll
    | .accumUntil _ _ _ _ _ => .ok GStep.acceptAll
    | .maybe _ a => do
      let t ← Format.stepT m n a next
      let u ← TNext.step m n next
      .ok (t.union (TNext.conts τ) u)
    | .peek a => do
      let t ← TNext.step m n next
      let p ← Format.stepT m n a .empty
      .ok (t.peek (TNext.conts τ) p)
    | .peekNot a => do
      let t ← TNext.step m n next
      let p ← Format.stepT m n a .empty
      .ok (t.peekNot (TNext.conts τ) p)
    | .slice e a => do
      let b ← Outcome.ofPanicky e.bounds
      match b.asExact with
      | some k => TNext.step m n (.slice k (.cat (.untyped a) .empty) next)
      | none => TNext.step m n (.slice b.min (.cat (.untyped a) .empty) .empty)
    | .bits _ => .ok GStep.acceptAll
    | .withRelativeOffset _ _ _ => .ok GStep.acceptAll
    | .map f _ => Format.stepT m n f next
    | .where_ f _ _ => Format.stepT m n f next
    | .pos => TNext.step m n next
    | .compute _ => TNext.step m n next
    | .let_ _ _ f => Format.stepT m n f next
    | .letView _ f => Format.stepT m n f next
    | .permit f _ => Format.stepT m n f next
    | .enforce f => Format.stepT m n f next
    | .match_ _ branches =>
      GStep.unionAll (TNext.conts τ) (fun f => Format.stepT m n f next) GStep.reject (branches.map (·.2))
    | .dynamic _ _ _ f => Format.stepT m n f next
    | .apply _ => .ok GStep.acceptAll
    | .monadSeq f0 f => Format.stepT m n f0 (.cat (.untyped f) next)
    | .letFormat f0 _ f => Format.stepT m n f0 (.cat (.untyped f) next)
    | .hint f => Format.stepT m n f next
    | .liftedNone => TNext.step m n next
    | .liftedSome f => Format.stepT m n f next
    | .captureBytes _ _ => TNext.step m n next
    | .readArray _ _ _ => TNext.step m n next
    | .reifyView _ => TNext.step m n next

/-- `MatchTreeStep::from_gt_format` (src/lib.rs:1736-1965).  A repetition with a static count is inlined in the
code; that is what `from_next` does for it. -/
def TFormat.step (m : Module) : Nat → TFormat τ → TNext τ → Run (GStep (TNext τ))
  | 0, _, _ => .fuel
  | n + 1, f, next =>
    match f with
    | .formatCall _ level _ _ _ => do
      let i ← Outcome.ofPanicky (m.get level)
      Format.stepT m n i.format next
    | .phantom _ _ => .ok GStep.acceptAll
    | .fail => .ok GStep.reject
    | .endOfInput => .ok GStep.acceptAll
    | .skipRemainder => .ok GStep.acceptAll
    | .align _ => .ok GStep.acceptAll
    | .decodeBytes _ _ _ => TNext.step m n next
    | .parseFromView _ _ _ => TNext.step m n next
    | .byte bs => .ok (GStep.branch bs next)
    | .variant _ _ f => TFormat.step m n f next
    | .union _ fs => GStep.unionAll (TNext.conts τ) (fun f => TFormat.step m n f next) GStep.reject fs
    | .unionNondet _ fs => GStep.unionAll (TNext.conts τ) (fun f => TFormat.step m n f next) GStep.reject fs
    | .sequence _ [] => TNext.step m n next
    | .sequence _ (f :: fs) => TFormat.step m n f (.sequence (.typed fs) next)
    | .tuple _ [] => TNext.step m n next
    | .tuple _ (f :: fs) => TFormat.step m n f (.sequence (.typed fs) next)
    | .repeat_ _ a => do
      let t ← TNext.step m n next
      let u ← TFormat.step m n a (.repeat_ (.typed a) next)
      .ok (t.union (TNext.conts τ) u)
    | .forEach _ _ _ a => do
      let t ← TNext.step m n next
      let b ← Outcome.ofPanicky (a.matchBounds)
      if b.min = 0 then
        if b.max = some 0 then .ok t else .ok GStep.acceptAll
      else do
        let u ← TFormat.step m n a (.repeat_ (.typed a) next)
        .ok (t.union (TNext.conts τ) u)
    | .repeat1 _ a => TFormat.step m n a (.repeat_ (.typed a) next)
    | .repeatCount _ e a =>
      let b := e.typedBounds
      match b.asExact with
      | some k => TNext.step m n (.repeatCount k (.typed a) next)
      | none => TNext.step m n (.repeatCount b.min (.typed a) .empty)
    | .repeatBetween _ x y a =>
      match x.typedBounds.asExact, y.typedBounds.asExact with
      | some min, some max =>
        if min < max then
          if 0 < min then TFormat.step m n a (.repeatBetween (min - 1) (max - 1) (.typed a) next)
          else TNext.step m n (.repeatMax max (.typed a) next)
        else if min = max then TNext.step m n (.repeatCount min (.typed a) next)
        else .panic
      | _, _ => .panic
    | .repeatUntilLast _ _ _ => .ok GStep.acceptAll
    | .repeatUntilSeq _ _ _ => .ok GStep.acceptAll
    | .accumUntil _ _ _ _ _ _ => .ok GStep.acceptAll
    | .maybe _ _ a => do
      let t ← TFormat.step m n a next
      let u ← TNext.step m n next
      .ok (u.union (TNext.conts τ) t)
    | .peek _ a => do
      let t ← TNext.step m n next
      let p ← TFormat.step m n a .empty
      .ok (t.peek (TNext.conts τ) p)
    | .peekNot _ a => do
      let t ← TNext.step m n next
      let p ← TFormat.step m n a .empty
      .ok (t.peekNot (TNext.conts τ) p)
    | .slice _ e a =>
      let b := e.typedBounds
      match b.asExact with
      | some k => TNext.step m n (.slice k (.cat (.typed a) .empty) next)
      | none => TNext.step m n (.slice b.min (.cat (.typed a) .empty) .empty)
    | .bits _ _ => .ok GStep.acceptAll
    | .withRelativeOffset _ _ _ _ => .ok GStep.acceptAll
    | .map _ f _ => TFormat.step m n f next
    | .where_ _ f _ _ => TFormat.step m n f next
    | .pos _ => TNext.step m n next
    | .compute _ _ => TNext.step m n next
    | .let_ _ _ _ f => TFormat.step m n f next
    | .letView _ _ f => TFormat.step m n f next
    | .permit _ f _ => TFormat.step m n f next
    | .enforce _ f => TFormat.step m n f next
    | .match_ _ _ branches =>
      GStep.unionAll (TNext.conts τ) (fun f => TFormat.step m n f next) GStep.reject (branches.map (·.2))
    | .dynamic _ _ _ _ f => TFormat.step m n f next
    | .apply _ _ => .ok GStep.acceptAll
    | .monadSeq _ f0 f => TFormat.step m n f0 (.cat (.typed f) next)
    | .letFormat _ f0 _ f => TFormat.step m n f0 (.cat (.typed f) next)
    | .hint _ f => TFormat.step m n f next
    | .liftedNone _ => TNext.step m n next
    | .liftedSome _ f => TFormat.step m n f next
    | .captureBytes _ _ _ => TNext.step m n next
    | .readArray _ _ _ _ => TNext.step m n next
    | .reifyView _ _ => TNext.step m n next

end

end

/-- `nexts` of `build` (src/lib.rs:2301-2304); the formats are untyped. -/
def TNext.initial {τ : Type} (next : TNext τ) : Nat → List Format → GLevelBranch (TNext τ)
  | _, [] => []
  | i, f :: fs => (i, .cat (.untyped f) next) :: TNext.initial next (i + 1) fs

/-- `MatchTree::build` (src/lib.rs:2300-2307). -/
def TNext.build {τ : Type} (m : Module) (ord : GHashOrder (TNext τ)) (fuel : Nat) (fs : List Format)
    (next : TNext τ) : Run (Option MatchTree) :=
  GLevel.grow (TNext.step m fuel) ord MatchTree.maxDepth [] (next.initial 0 fs)

/-- What the compiler of code generation depends on: hash-set orders and recursion bound for prefix trees, and
the types that are numeric. -/
structure TOpts (τ : Type) where
  base : BuildOpts
  ord : GHashOrder (TNext τ)
  /-- `GenType::try_to_num_type` finds a type -/
  numeric : τ → Bool

/-- `struct GTCompiler` (src/codegen/typed_decoder.rs:286-291) without the module; the signatures in the queue are
left out. -/
structure TCompSt (τ : Type) where
  decoders : List Decoder
  map : List ((Nat × TNext τ) × Nat)
  queue : List (TFormat τ × TNext τ × Nat)

/-- The compiled decoder is `TypedDecoder::Fail`, not below a hint (src/codegen/typed_decoder.rs:436-451). -/
def TFormat.compilesToFail {τ : Type} : TFormat τ → Bool
  | .fail => true
  | .variant _ _ f => f.compilesToFail
  | _ => false

namespace TCompiler
variable {τ : Type}

/-- `GTCompiler::new` (src/codegen/typed_decoder.rs:298-308). -/
def new : TCompSt τ := ⟨[], [], []⟩

/-- `queue_compile` (src/codegen/typed_decoder.rs:347-358). -/
def queueCompile (st : TCompSt τ) (f : TFormat τ) (next : TNext τ) : Nat × TCompSt τ :=
  (st.decoders.length,
    { st with
      decoders := st.decoders ++ [.fail]
      queue := (f, next, st.decoders.length) :: st.queue })

/-- `decoder_map.get(&key)` (std). -/
def mapGet [DecidableEq (TNext τ)] (key : Nat × TNext τ) : List ((Nat × TNext τ) × Nat) → Option Nat
  | [] => none
  | (k, n) :: rest => if k = key then some n else mapGet key rest

/-- The lookup-or-queue part of the `FormatCall` arm (src/codegen/typed_decoder.rs:405-412). -/
def callIndex [DecidableEq (TNext τ)] (st : TCompSt τ) (level : Nat) (f : TFormat τ) (next : TNext τ) :
    Nat × TCompSt τ :=
  match mapGet (level, next) st.map with
  | some n => (n, st)
  | none =>
    let r := queueCompile st f next
    (r.1, { r.2 with map := ((level, next), r.1) :: r.2.map })

/-- `MatchTree::build(..)` or `Err(..)` -/
def buildOrErr (m : Module) (o : TOpts τ) (fs : List Format) (next : TNext τ) : Outcome Unit MatchTree := do
  let t ← Outcome.lift (TNext.build m o.ord o.base.fuel fs next)
  Outcome.ofOption () t

end TCompiler

open TCompiler in
mutual

/-- `GTCompiler::compile_gt_format` (src/codegen/typed_decoder.rs:366-768). -/
def compileTyped {τ : Type} [DecidableEq (TNext τ)] (m : Module) (o : TOpts τ) :
    TFormat τ → TNext τ → TCompSt τ → Outcome Unit (Decoder × TCompSt τ)
  | .formatCall _ level args views deref, next, st => do
    let i ← Outcome.ofPanicky (m.get level)
    let dep ← Outcome.lift (i.format.dependsOnNext m o.base)
    let r := callIndex st level deref (if dep then next else .empty)
    .ok (.call r.1 args views, r.2)
  | .phantom _ f, _, st => do
    let r ← compileTyped m o f .empty st
    .ok (.phantom, r.2)
  | .fail, _, st => .ok (.fail, st)
  | .decodeBytes _ e f, _, st => do
    let r ← compileTyped m o f .empty st
    .ok (.decodeBytes e r.1, r.2)
  | .parseFromView _ v f, _, st => do
    let r ← compileTyped m o f .empty st
    .ok (.parseFromView v r.1, r.2)
  | .pos t, _, st => if o.numeric t then .ok (.pos, st) else .panic
  | .letView _ name f, next, st => do
    let r ← compileTyped m o f next st
    .ok (.letView name r.1, r.2)
  | .endOfInput, _, st => .ok (.endOfInput, st)
  | .align n, _, st => .ok (.align n, st)
  | .byte bs, _, st => .ok (.byte bs, st)
  | .skipRemainder, _, st => .ok (.skipRemainder, st)
  | .variant _ label f, next, st => do
    let r ← compileTyped m o f next st
    if f.compilesToFail then .ok (.fail, r.2) else .ok (.variant label r.1, r.2)
  | .union _ fs, next, st => do
    let r ← compileTypedAll m o fs next st
    let t ← buildOrErr m o (TFormat.eraseList fs) next
    .ok (.branch t r.1, r.2)
  | .unionNondet _ fs, next, st => do
    let r ← compileTypedAll m o fs next st
    .ok (.parallel r.1, r.2)
  | .tuple _ fs, next, st => do
    let r ← compileTypedFields m o fs next st
    .ok (.tuple r.1, r.2)
  | .sequence _ fs, next, st => do
    let r ← compileTypedFields m o fs next st
    .ok (.sequence r.1, r.2)
  | .repeat_ _ a, next, st => do
    let nullable ← Outcome.ofPanicky (a.isNullable)
    if nullable then .err ()
    else do
      let r ← compileTyped m o a (.repeat_ (.typed a) next) st
      let t ← buildOrErr m o [.tuple [a.erase, .repeat_ a.erase], Format.EMPTY] next
      .ok (.while_ t r.1, r.2)
  | .repeat1 _ a, next, st => do
    let nullable ← Outcome.ofPanicky (a.isNullable)
    if nullable then .err ()
    else do
      let r ← compileTyped m o a (.repeat_ (.typed a) next) st
      let t ← buildOrErr m o [Format.EMPTY, .tuple [a.erase, .repeat_ a.erase]] next
      .ok (.until_ t r.1, r.2)
  | .repeatCount _ e a, next, st => do
    let r ← compileTyped m o a (.repeat_ (.typed a) next) st
    .ok (.repeatCount e r.1, r.2)
  | .repeatBetween _ x y a, next, st => do
    let min ← Outcome.ofPanicky (Panicky.unwrap x.typedBounds.asExact)
    let max ← Outcome.ofPanicky (Panicky.unwrap y.typedBounds.asExact)
    let r ← compileTyped m o a (.repeatBetween (min - 1) (max - 1) (.typed a) next) st
    let t ← buildOrErr m o (Compiler.countFormats a.erase max) next
    .ok (.repeatBetween t x y r.1, r.2)
  | .repeatUntilLast _ e a, next, st => do
    let r ← compileTyped m o a (.repeat_ (.typed a) next) st
    .ok (.repeatUntilLast e r.1, r.2)
  | .forEach _ e label a, next, st => do
    let r ← compileTyped m o a (.repeat_ (.typed a) next) st
    .ok (.forEach e label r.1, r.2)
  | .repeatUntilSeq _ e a, next, st => do
    let r ← compileTyped m o a (.repeat_ (.typed a) next) st
    .ok (.repeatUntilSeq e r.1, r.2)
  | .accumUntil _ done update init _ a, next, st => do
    let r ← compileTyped m o a (.repeat_ (.typed a) next) st
    .ok (.accumUntil done update init r.1, r.2)
  | .maybe _ e a, next, st => do
    let r ← compileTyped m o a next st
    .ok (.maybe e r.1, r.2)
  | .peek _ a, _, st => do
    let r ← compileTyped m o a .empty st
    .ok (.peek r.1, r.2)
  | .peekNot _ a, _, st => do
    let b ← Outcome.ofPanicky (a.lookaheadBounds)
    if Compiler.peekNotAllowed b then do
      let r ← compileTyped m o a .empty st
      .ok (.peekNot r.1, r.2)
    else .err ()
  | .slice _ e a, _, st => do
    let r ← compileTyped m o a .empty st
    .ok (.slice e r.1, r.2)
  | .bits _ a, _, st => do
    let r ← compileTyped m o a .empty st
    .ok (.bits r.1, r.2)
  | .withRelativeOffset _ base off a, _, st => do
    let r ← compileTyped m o a .empty st
    .ok (.withRelativeOffset base off r.1, r.2)
  | .map _ a e, next, st => do
    let r ← compileTyped m o a next st
    .ok (.map r.1 e, r.2)
  | .where_ _ a e strict, next, st => do
    let r ← compileTyped m o a next st
    .ok (.where_ r.1 e strict, r.2)
  | .enforce _ a, next, st => do
    let r ← compileTyped m o a next st
    .ok (.enforce r.1, r.2)
  | .permit _ a e, next, st => do
    let r ← compileTyped m o a next st
    .ok (.permit r.1 e, r.2)
  | .compute _ e, _, st => .ok (.compute e, st)
  | .let_ _ name e a, next, st => do
    let r ← compileTyped m o a next st
    .ok (.let_ name e r.1, r.2)
  | .match_ _ head branches, next, st => do
    let r ← compileTypedBranches m o branches next st
    .ok (.match_ head r.1, r.2)
  | .dynamic _ name lengths values a, next, st => do
    let r ← compileTyped m o a next st
    .ok (.dynamic name lengths values r.1, r.2)
  | .apply _ name, _, st => .ok (.apply name, st)
  | .letFormat _ a name b, next, st => do
    let r ← compileTyped m o a (.cat (.typed b) next) st
    let q ← compileTyped m o b next r.2
    .ok (.letFormat r.1 name q.1, q.2)
  | .monadSeq _ a b, next, st => do
    let r ← compileTyped m o a (.cat (.typed b) next) st
    let q ← compileTyped m o b next r.2
    .ok (.monadSeq r.1 q.1, q.2)
  | .hint _ a, next, st => compileTyped m o a next st
  | .liftedNone _, _, st => .ok (.liftedNone, st)
  | .liftedSome _ a, next, st => do
    let r ← compileTyped m o a next st
    .ok (.liftedSome r.1, r.2)
  | .captureBytes _ v len, _, st => .ok (.captureBytes v len, st)
  | .readArray _ v len kind, _, st => .ok (.readArray v len kind, st)
  | .reifyView _ v, _, st => .ok (.reifyView v, st)

/-- the loop over the branches of a union (src/codegen/typed_decoder.rs:455-458, 470-473) -/
def compileTypedAll {τ : Type} [DecidableEq (TNext τ)] (m : Module) (o : TOpts τ) :
    List (TFormat τ) → TNext τ → TCompSt τ → Outcome Unit (List Decoder × TCompSt τ)
  | [], _, st => .ok ([], st)
  | f :: fs, next, st => do
    let r ← compileTyped m o f next st
    let q ← compileTypedAll m o fs next r.2
    .ok (r.1 :: q.1, q.2)

/-- the loop over the fields of a tuple or sequence (src/codegen/typed_decoder.rs:476-500) -/
def compileTypedFields {τ : Type} [DecidableEq (TNext τ)] (m : Module) (o : TOpts τ) :
    List (TFormat τ) → TNext τ → TCompSt τ → Outcome Unit (List Decoder × TCompSt τ)
  | [], _, st => .ok ([], st)
  | f :: fs, next, st => do
    let r ← compileTyped m o f (.sequence (.typed fs) next) st
    let q ← compileTypedFields m o fs next r.2
    .ok (r.1 :: q.1, q.2)

/-- the branches of a match (src/codegen/typed_decoder.rs:683-693) -/
def compileTypedBranches {τ : Type} [DecidableEq (TNext τ)] (m : Module) (o : TOpts τ) :
    List (Pattern × TFormat τ) → TNext τ → TCompSt τ →
    Outcome Unit (List (Pattern × Decoder) × TCompSt τ)
  | [], _, st => .ok ([], st)
  | (p, f) :: fs, next, st => do
    let r ← compileTyped m o f next st
    let q ← compileTypedBranches m o fs next r.2
    .ok ((p, r.1) :: q.1, q.2)

end

namespace TCompiler
variable {τ : Type}

/-- The loop of `compile_local_root` (src/codegen/typed_decoder.rs:342-345). -/
def drain [DecidableEq (TNext τ)] (m : Module) (o : TOpts τ) : Nat → TCompSt τ → Outcome Unit (TCompSt τ)
  | 0, _ => .fuel
  | n + 1, st =>
    match st.queue with
    | [] => .ok st
    | (f, next, k) :: rest => do
      let r ← compileTyped m o f next { st with queue := rest }
      drain m o n { r.2 with decoders := r.2.decoders.set k r.1 }

/-- `compile_local_root` (src/codegen/typed_decoder.rs:328-345); only `Fail` has no type
(src/codegen/typed_format.rs:512-516). -/
def compileRoot [DecidableEq (TNext τ)] (m : Module) (o : TOpts τ) (fuel : Nat) (f : TFormat τ) (st : TCompSt τ) :
    Outcome Unit (TCompSt τ) :=
  match f with
  | .fail => .panic
  | f => drain m o fuel (queueCompile st f .empty).2

/-- the loop over the extra roots (src/codegen/typed_decoder.rs:318-320); those that are skipped because their type
is not ad-hoc are left out of the list -/
def compileRoots [DecidableEq (TNext τ)] (m : Module) (o : TOpts τ) (fuel : Nat) :
    List (TFormat τ) → TCompSt τ → Outcome Unit (TCompSt τ)
  | [], st => .ok st
  | f :: fs, st => do
    let st ← compileRoot m o fuel f st
    compileRoots m o fuel fs st

/-- `GTCompiler::compile_program` (src/codegen/typed_decoder.rs:309-323). -/
def compileProgram [DecidableEq (TNext τ)] (m : Module) (o : TOpts τ) (fuel : Nat) (f : TFormat τ)
    (extra : List (TFormat τ)) : Outcome Unit (List Decoder) := do
  let st ← compileRoots m o fuel (f :: extra) new
  .ok st.decoders

end TCompiler
end Doodle
