import Verif.Model.Format
import Verif.Model.Outcome

/-!
Model of prefix-tree construction and use (/repo/src/lib.rs:1365-2307): `Next`, `MatchTreeStep`,
`MatchTreeLevel`, `MatchTree`.

* Only untyped formats are modelled (`MaybeTyped::Untyped`); the typed variants serve code generation.
* `from_next` / `from_format` recurse without decreasing anything when a repeated format can match the
  empty string, so they take a bound on the recursion depth.
* A `HashSet<(usize, Rc<Next>)>` is a list of its elements, possibly with duplicates.  Its iteration
  order (and the removal of duplicates) is chosen by a parameter `HashOrder`, which may choose
  differently at every node of the tree; theorems speak about every choice.
-/

namespace Doodle

/-- `enum Next` (src/lib.rs:1386-1398). -/
inductive Next where
  | empty
  | union (a b : Next)
  | cat (f : Format) (next : Next)
  | sequence (fs : List Format) (next : Next)
  | repeat_ (f : Format) (next : Next)
  | repeatCount (n : Nat) (f : Format) (next : Next)
  | repeatMax (n : Nat) (f : Format) (next : Next)
  | repeatBetween (n m : Nat) (f : Format) (next : Next)
  | slice (n : Nat) (inside next : Next)
  | peek (a b : Next)
  | peekNot (a b : Next)

/-- `struct MatchTreeStep` (src/lib.rs:1401-1405). -/
structure Step where
  accept : Bool
  branches : List (ByteSet × Next)

namespace Step

/-- `MatchTreeStep::reject` (src/lib.rs:1426-1431). -/
def reject : Step := ⟨false, []⟩
/-- `MatchTreeStep::accept` (src/lib.rs:1434-1439). -/
def acceptAll : Step := ⟨true, []⟩
/-- `MatchTreeStep::branch` (src/lib.rs:1442-1447). -/
def branch (bs : ByteSet) (next : Next) : Step := ⟨false, [(bs, next)]⟩

/-- The loop of `union_branch` (src/lib.rs:1452-1463) over the existing branches; the result is the
modified branches, the bytes of `bs` left over, and the queue `branches`. -/
def splitBranches (next : Next) : ByteSet → List (ByteSet × Next) →
    List (ByteSet × Next) × ByteSet × List (ByteSet × Next)
  | bs, [] => ([], bs, [])
  | bs, (bs0, next0) :: rest =>
    let common := bs0.intersection bs
    if common.isEmpty then
      let r := splitBranches next bs rest
      ((bs0, next0) :: r.1, r.2.1, r.2.2)
    else
      let orig := bs0.difference bs
      let r := splitBranches next (bs.difference common) rest
      ((common, .union next0 next) :: r.1, r.2.1,
        if orig.isEmpty then r.2.2 else (orig, next0) :: r.2.2)

/-- `MatchTreeStep::union_branch` (src/lib.rs:1450-1468). -/
def unionBranch (s : Step) (bs : ByteSet) (next : Next) : Step :=
  let r := splitBranches next bs s.branches
  { s with branches := r.1 ++ (if r.2.1.isEmpty then [] else [(r.2.1, next)]) ++ r.2.2 }

/-- the loop `for (bs, next) in other.branches` (src/lib.rs:1473-1475) -/
def unionBranches : Step → List (ByteSet × Next) → Step
  | s, [] => s
  | s, (bs, next) :: rest => unionBranches (s.unionBranch bs next) rest

/-- `MatchTreeStep::union` (src/lib.rs:1471-1477). -/
def union (s other : Step) : Step :=
  unionBranches { s with accept := s.accept || other.accept } other.branches

/-- the inner loop of `peek` (src/lib.rs:1492-1498) -/
def peekBranch (bs1 : ByteSet) (next1 : Next) : List (ByteSet × Next) → List (ByteSet × Next)
  | [] => []
  | (bs2, next2) :: rest =>
    if (bs1.intersection bs2).isEmpty then peekBranch bs1 next1 rest
    else (bs1.intersection bs2, .peek next1 next2) :: peekBranch bs1 next1 rest

/-- `MatchTreeStep::peek` (src/lib.rs:1481-1503). -/
def peek (s p : Step) : Step :=
  if p.accept then s
  else if s.accept then ⟨p.accept, p.branches⟩
  else { s with branches := s.branches.flatMap fun b => peekBranch b.1 b.2 p.branches }

/-- the inner loop of `peek_not` (src/lib.rs:1515-1522): the new branches and what is left of `diff` -/
def peekNotBranch (bs1 : ByteSet) (next1 : Next) : ByteSet → List (ByteSet × Next) →
    List (ByteSet × Next) × ByteSet
  | diff, [] => ([], diff)
  | diff, (bs2, next2) :: rest =>
    let r := peekNotBranch bs1 next1 (diff.difference bs2) rest
    if (bs1.intersection bs2).isEmpty then r
    else ((bs1.intersection bs2, .peekNot next1 next2) :: r.1, r.2)

/-- `MatchTreeStep::peek_not` (src/lib.rs:1507-1530). -/
def peekNot (s p : Step) : Step :=
  if p.accept then ⟨false, []⟩
  else
    { s with
      branches := s.branches.flatMap fun b =>
        let r := peekNotBranch b.1 b.2 b.1 p.branches
        r.1 ++ (if r.2.isEmpty then [] else [(r.2, b.2)]) }

/-- What `from_slice` makes of the step of the inside, for `n > 0` (src/lib.rs:1614-1626). -/
def inSlice (s : Step) (n : Nat) (next : Next) : Step :=
  if s.branches.isEmpty then ⟨false, [(ByteSet.full, .slice (n - 1) .empty next)]⟩
  else ⟨false, s.branches.map fun b => (b.1, .slice (n - 1) b.2 next)⟩

end Step

/-- outcome of code that cannot return an error -/
abbrev Run := Outcome Empty

/-- `for f in branches { tree = tree.union(from_format(f, next)) }` (src/lib.rs:1987-1993). -/
def unionAll (step : Format → Run Step) : Step → List Format → Run Step
  | s, [] => .ok s
  | s, f :: fs => do
    let t ← step f
    unionAll step (s.union t) fs

mutual

/-- `MatchTreeStep::from_next` (src/lib.rs:1632-1722), with `from_slice` (src/lib.rs:1608-1630). -/
def Next.step (m : Module) : Nat → Next → Run Step
  | 0, _ => .fuel
  | n + 1, next =>
    match next with
    | .empty => .ok Step.acceptAll
    | .union a b => do
      let t1 ← Next.step m n a
      let t2 ← Next.step m n b
      .ok (t1.union t2)
    | .cat f next => Format.step m n f next
    | .sequence [] next => Next.step m n next
    | .sequence (f :: fs) next => Format.step m n f (.sequence fs next)
    | .repeat_ f next0 => do
      let t ← Next.step m n next0
      let u ← Format.step m n f (.repeat_ f next0)
      .ok (t.union u)
    | .repeatBetween min max f next0 =>
      if min = max then .panic
      else if 0 < min then
        if max = 0 then .panic
        else Format.step m n f (.repeatBetween (min - 1) (max - 1) f next0)
      else Next.step m n (.repeatMax max f next0)
    | .repeatMax k f next0 =>
      if k = 0 then Next.step m n next0
      else do
        let t ← Next.step m n next0
        let u ← Format.step m n f (.repeatMax (k - 1) f next0)
        .ok (t.union u)
    | .repeatCount k f next0 =>
      if 0 < k then Format.step m n f (.repeatCount (k - 1) f next0)
      else Next.step m n next0
    | .slice k inside next0 =>
      if 0 < k then do
        let t ← Next.step m n inside
        .ok (t.inSlice k next0)
      else Next.step m n next0
    | .peek a b => do
      let t1 ← Next.step m n a
      let t2 ← Next.step m n b
      .ok (t1.peek t2)
    | .peekNot a b => do
      let t1 ← Next.step m n a
      let t2 ← Next.step m n b
      .ok (t1.peekNot t2)

/-- `MatchTreeStep::from_format` (src/lib.rs:1968-2139), with `from_sequential`, `from_repeat_count`,
`from_repeat_between`, `from_slice` (src/lib.rs:1533-1630) and `from_align` (src/lib.rs:2143-2155). -/
def Format.step (m : Module) : Nat → Format → Next → Run Step
  | 0, _, _ => .fuel
  | n + 1, f, next =>
    match f with
    | .itemVar level _ _ => do
      let i ← Outcome.ofPanicky (m.get level)
      Format.step m n i.format next
    | .phantom _ => .ok Step.acceptAll
    | .fail => .ok Step.reject
    | .endOfInput => .ok Step.acceptAll
    | .skipRemainder => .ok Step.acceptAll
    | .align k =>
      if k = 0 then .panic
      else if k = 1 then Next.step m n next
      else .ok Step.acceptAll
    | .decodeBytes _ _ => Next.step m n next
    | .parseFromView _ _ => Next.step m n next
    | .byte bs => .ok (Step.branch bs next)
    | .variant _ f => Format.step m n f next
    | .union fs => unionAll (fun f => Format.step m n f next) Step.reject fs
    | .unionNondet fs => unionAll (fun f => Format.step m n f next) Step.reject fs
    | .sequence [] => Next.step m n next
    | .sequence (f :: fs) => Format.step m n f (.sequence fs next)
    | .tuple [] => Next.step m n next
    | .tuple (f :: fs) => Format.step m n f (.sequence fs next)
    | .repeat_ a => do
      let t ← Next.step m n next
      let u ← Format.step m n a (.repeat_ a next)
      .ok (t.union u)
    | .forEach _ _ a => do
      let t ← Next.step m n next
      let b ← Outcome.ofPanicky (a.matchBounds m)
      if b.min = 0 then
        if b.max = some 0 then .ok t else .ok Step.acceptAll
      else do
        let u ← Format.step m n a (.repeat_ a next)
        .ok (t.union u)
    | .repeat1 a => Format.step m n a (.repeat_ a next)
    | .repeatCount e a => do
      let b ← Outcome.ofPanicky e.bounds
      match b.asExact with
      | some k => Next.step m n (.repeatCount k a next)
      | none => Next.step m n (.repeatCount b.min a .empty)
    | .repeatBetween x y a => do
      let bx ← Outcome.ofPanicky x.bounds
      let by_ ← Outcome.ofPanicky y.bounds
      match bx.asExact, by_.asExact with
      | some min, some max =>
        if min < max then
          if 0 < min then Format.step m n a (.repeatBetween (min - 1) (max - 1) a next)
          else Next.step m n (.repeatMax max a next)
        else if min = max then Next.step m n (.repeatCount min a next)
        else .panic
      | _, _ => .panic
    | .repeatUntilLast _ _ => .ok Step.acceptAll
    | .repeatUntilSeq _ _ => .ok Step.acceptAll
    | .accumUntil _ _ _ _ _ => .ok Step.acceptAll
    | .maybe _ a => do
      let t ← Format.step m n a next
      let u ← Next.step m n next
      .ok (t.union u)
    | .peek a => do
      let t ← Next.step m n next
      let p ← Format.step m n a .empty
      .ok (t.peek p)
    | .peekNot a => do
      let t ← Next.step m n next
      let p ← Format.step m n a .empty
      .ok (t.peekNot p)
    | .slice e a => do
      let b ← Outcome.ofPanicky e.bounds
      match b.asExact with
      | some k => Next.step m n (.slice k (.cat a .empty) next)
      | none => Next.step m n (.slice b.min (.cat a .empty) .empty)
    | .bits _ => .ok Step.acceptAll
    | .withRelativeOffset _ _ _ => .ok Step.acceptAll
    | .map f _ => Format.step m n f next
    | .where_ f _ _ => Format.step m n f next
    | .pos => Next.step m n next
    | .compute _ => Next.step m n next
    | .let_ _ _ f => Format.step m n f next
    | .letView _ f => Format.step m n f next
    | .permit f _ => Format.step m n f next
    | .enforce f => Format.step m n f next
    | .match_ _ branches =>
      unionAll (fun f => Format.step m n f next) Step.reject (branches.map (·.2))
    | .dynamic _ _ _ f => Format.step m n f next
    | .apply _ => .ok Step.acceptAll
    | .monadSeq f0 f => Format.step m n f0 (.cat f next)
    | .letFormat f0 _ f => Format.step m n f0 (.cat f next)
    | .hint f => Format.step m n f next
    | .liftedNone => Next.step m n next
    | .liftedSome f => Format.step m n f next
    | .captureBytes _ _ => Next.step m n next
    | .readArray _ _ _ => Next.step m n next
    | .reifyView _ => Next.step m n next

end

/-- `type LevelBranch = HashSet<(usize, Rc<Next>)>` (src/lib.rs:1414-1415), as a list. -/
abbrev LevelBranch := List (Nat × Next)

/-- Choice of the iteration order of the hash set at the node reached by a path (positions of the
branches taken, innermost first). -/
abbrev HashOrder := List Nat → LevelBranch → LevelBranch

/-- A hash set yields its elements, all of them and nothing else, in some order. -/
def HashOrder.Valid (ord : HashOrder) : Prop := ∀ path l x, x ∈ ord path l ↔ x ∈ l

/-- `struct MatchTreeLevel` (src/lib.rs:1408-1412). -/
structure Level where
  accept : Option Nat
  branches : List (ByteSet × LevelBranch)

/-- `struct MatchTree` (src/lib.rs:1418-1422). -/
inductive MatchTree where
  | node (accept : Option Nat) (branches : List (ByteSet × MatchTree))

namespace Level

/-- `MatchTreeLevel::reject` (src/lib.rs:2159-2164). -/
def reject : Level := ⟨none, []⟩

/-- `merge_accept` (src/lib.rs:2169-2178); `none` is `Err(())`. -/
def mergeAccept (acc : Option Nat) (index : Nat) : Option (Option Nat) :=
  match acc with
  | none => some (some index)
  | some i => if i = index then some (some i) else none

/-- The loop of `merge_branch` (src/lib.rs:2184-2199) over the existing branches, cf.
`Step.splitBranches`. -/
def splitBranches (entry : Nat × Next) : ByteSet → List (ByteSet × LevelBranch) →
    List (ByteSet × LevelBranch) × ByteSet × List (ByteSet × LevelBranch)
  | bs, [] => ([], bs, [])
  | bs, (bs0, nexts) :: rest =>
    let common := bs0.intersection bs
    if common.isEmpty then
      let r := splitBranches entry bs rest
      ((bs0, nexts) :: r.1, r.2.1, r.2.2)
    else
      let orig := bs0.difference bs
      let r := splitBranches entry (bs.difference common) rest
      ((common, nexts ++ [entry]) :: r.1, r.2.1,
        if orig.isEmpty then r.2.2 else (orig, nexts) :: r.2.2)

/-- `merge_branch` (src/lib.rs:2181-2210). -/
def mergeBranch (branches : List (ByteSet × LevelBranch)) (index : Nat) (bs : ByteSet) (next : Next) :
    List (ByteSet × LevelBranch) :=
  let r := splitBranches (index, next) bs branches
  r.1 ++ (if r.2.1.isEmpty then [] else [(r.2.1, [(index, next)])]) ++ r.2.2

/-- the loop `for (bs, next) in step.branches` (src/lib.rs:2221-2223) -/
def mergeBranches (index : Nat) : List (ByteSet × LevelBranch) → List (ByteSet × Next) →
    List (ByteSet × LevelBranch)
  | acc, [] => acc
  | acc, (bs, next) :: rest => mergeBranches index (mergeBranch acc index bs next) rest

/-- `merge_step` (src/lib.rs:2213-2225). -/
def mergeStep (l : Level) (index : Nat) (s : Step) : Option Level :=
  if s.accept then
    match mergeAccept l.accept index with
    | none => none
    | some a => some ⟨a, mergeBranches index l.branches s.branches⟩
  else some ⟨l.accept, mergeBranches index l.branches s.branches⟩

/-- the loop of `accepts` (src/lib.rs:2234-2237) -/
def acceptsLoop : Option Nat → LevelBranch → Option (Option Nat)
  | acc, [] => some acc
  | acc, (i, _) :: rest =>
    match mergeAccept acc i with
    | none => none
    | some a => acceptsLoop a rest

/-- `accepts` (src/lib.rs:2233-2242). -/
def accepts (nexts : LevelBranch) : Option MatchTree :=
  match acceptsLoop none nexts with
  | none => none
  | some a => some (.node a [])

/-- one step of a stable insertion sort by index -/
def insertByIx (x : Nat × Next) : LevelBranch → LevelBranch
  | [] => [x]
  | y :: ys => if x.1 ≤ y.1 then x :: y :: ys else y :: insertByIx x ys

/-- `tmp.sort_by_key(|(ix, _)| *ix)` (src/lib.rs:2257), a stable sort. -/
def sortByIx : LevelBranch → LevelBranch
  | [] => []
  | x :: xs => insertByIx x (sortByIx xs)

/-- The loop merging the steps of all entries (src/lib.rs:2258-2261); `none` is the early return. -/
def mergeAll (m : Module) (fuel : Nat) : Level → LevelBranch → Run (Option Level)
  | l, [] => .ok (some l)
  | l, (i, next) :: rest => do
    let s ← Next.step m fuel next
    match l.mergeStep i s with
    | none => .ok none
    | some l' => mergeAll m fuel l' rest

/-- The loop over the branches of a level (src/lib.rs:2262-2266); `pos` counts the branches. -/
def growBranches (grow : Nat → LevelBranch → Run (Option MatchTree)) :
    Nat → List (ByteSet × LevelBranch) → Run (Option (List (ByteSet × MatchTree)))
  | _, [] => .ok (some [])
  | pos, (bs, nexts) :: rest => do
    let t ← grow pos nexts
    match t with
    | none => .ok none
    | some t => do
      let ts ← growBranches grow (pos + 1) rest
      match ts with
      | none => .ok none
      | some ts => .ok (some ((bs, t) :: ts))

/-- `MatchTreeLevel::grow` (src/lib.rs:2251-2275). -/
def grow (m : Module) (ord : HashOrder) (fuel : Nat) :
    Nat → List Nat → LevelBranch → Run (Option MatchTree)
  | depth, path, nexts =>
    match accepts (ord path nexts) with
    | some t => .ok (some t)
    | none =>
      match depth with
      | 0 => .ok none
      | depth + 1 => do
        let l ← mergeAll m fuel reject (sortByIx (ord path nexts))
        match l with
        | none => .ok none
        | some l => do
          let bs ← growBranches (fun pos nexts => grow m ord fuel depth (pos :: path) nexts) 0 l.branches
          match bs with
          | none => .ok none
          | some bs => .ok (some (.node l.accept bs))

end Level

namespace MatchTree

/-- the accepting index of the root -/
def accept : MatchTree → Option Nat
  | .node a _ => a

/-- the branches of the root -/
def branches : MatchTree → List (ByteSet × MatchTree)
  | .node _ bs => bs

mutual
/-- `MatchTree::matches` (src/lib.rs:2282-2294) on the bytes that `read_byte` will deliver. -/
def matchesBytes : MatchTree → List UInt8 → Option Nat
  | .node a _, [] => a
  | .node a bs, b :: rest => matchesBranches bs b rest a

/-- the loop over the branches (src/lib.rs:2286-2291) -/
def matchesBranches : List (ByteSet × MatchTree) → UInt8 → List UInt8 → Option Nat → Option Nat
  | [], _, _, a => a
  | (bs, t) :: ts, b, rest, a =>
    if bs.contains b then t.matchesBytes rest else matchesBranches ts b rest a
end

/-- `MatchTree::matches` (src/lib.rs:2282-2294): `read_byte` delivers the bytes from the offset on. -/
def «matches» (t : MatchTree) (c : ReadCtxt) : Option Nat := t.matchesBytes (c.input.drop c.offset)

/-- `MAX_DEPTH` (src/lib.rs:2305). -/
def maxDepth : Nat := 80

/-- `nexts` of `build` (src/lib.rs:2301-2304); `i` is the index of the first format. -/
def initial (next : Next) : Nat → List Format → LevelBranch
  | _, [] => []
  | i, f :: fs => (i, .cat f next) :: initial next (i + 1) fs

/-- `MatchTree::build` (src/lib.rs:2300-2307). -/
def build (m : Module) (ord : HashOrder) (fuel : Nat) (fs : List Format) (next : Next) :
    Run (Option MatchTree) :=
  Level.grow m ord fuel maxDepth [] (initial next 0 fs)

end MatchTree
end Doodle
