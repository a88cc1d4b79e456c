import Verif.Model.Decoder

/-!
Model of the compiler from formats to decoders (/repo/src/decoder.rs:550-907) and of
`Format::depends_on_next` (/repo/src/format.rs:433-495).

`compile_program` first type-checks the format; that step is not part of this model.  The types stored
beside the decoders are left out.  `decoder_map` is an association list; comparing keys needs decidable
equality of `Next` (derived structurally in the code), which is an instance parameter.
-/

namespace Doodle

/-- a computation without errors in a context with errors -/
def Outcome.lift {ε α : Type} : Run α → Outcome ε α
  | .ok a => .ok a
  | .panic => .panic
  | .fuel => .fuel

/-- hash-set order and recursion bound used by prefix-tree construction -/
structure BuildOpts where
  ord : HashOrder
  fuel : Nat

mutual

/-- `Format::depends_on_next` (src/format.rs:433-481); `item` is the result for an item of the module.
`any` and `||` stop at the first `true`. -/
def Format.dependsOnNextWith (m : Module) (o : BuildOpts) (item : Nat → Run Bool) : Format → Run Bool
  | .itemVar level _ _ => item level
  | .variant _ f => Format.dependsOnNextWith m o item f
  | .union fs => Format.unionDependsOnNext m o item fs fs
  | .unionNondet fs => Format.unionDependsOnNext m o item fs fs
  | .tuple fs => Format.anyDependsOnNext m o item fs
  | .sequence fs => Format.anyDependsOnNext m o item fs
  | .repeat_ _ => .ok true
  | .repeat1 _ => .ok true
  | .repeatBetween _ _ _ => .ok true
  | .maybe _ _ => .ok true
  | .map f _ => Format.dependsOnNextWith m o item f
  | .where_ f _ _ => Format.dependsOnNextWith m o item f
  | .let_ _ _ f => Format.dependsOnNextWith m o item f
  | .letView _ f => Format.dependsOnNextWith m o item f
  | .match_ _ branches => Format.branchDependsOnNext m o item branches
  | .dynamic _ _ _ f => Format.dependsOnNextWith m o item f
  | .forEach _ _ f => Format.dependsOnNextWith m o item f
  | .monadSeq f g => do
    let b ← Format.dependsOnNextWith m o item f
    if b then .ok true else Format.dependsOnNextWith m o item g
  | .letFormat f _ g => do
    let b ← Format.dependsOnNextWith m o item f
    if b then .ok true else Format.dependsOnNextWith m o item g
  | .enforce f => Format.dependsOnNextWith m o item f
  | .permit f _ => Format.dependsOnNextWith m o item f
  | .hint f => Format.dependsOnNextWith m o item f
  | .liftedSome f => Format.dependsOnNextWith m o item f
  | _ => .ok false

/-- `Format::union_depends_on_next` (src/format.rs:483-492): `fs` are the formats left to check, `all`
the whole list. -/
def Format.unionDependsOnNext (m : Module) (o : BuildOpts) (item : Nat → Run Bool) (all : List Format) :
    List Format → Run Bool
  | [] => do
    let t ← MatchTree.build m o.ord o.fuel all .empty
    .ok t.isNone
  | f :: fs => do
    let b ← Format.dependsOnNextWith m o item f
    if b then .ok true else Format.unionDependsOnNext m o item all fs

/-- `fmts.iter().any(|f| f.depends_on_next(module))`. -/
def Format.anyDependsOnNext (m : Module) (o : BuildOpts) (item : Nat → Run Bool) : List Format → Run Bool
  | [] => .ok false
  | f :: fs => do
    let b ← Format.dependsOnNextWith m o item f
    if b then .ok true else Format.anyDependsOnNext m o item fs

/-- `branches.iter().any(|(_, f)| f.depends_on_next(module))`. -/
def Format.branchDependsOnNext (m : Module) (o : BuildOpts) (item : Nat → Run Bool) :
    List (Pattern × Format) → Run Bool
  | [] => .ok false
  | (_, f) :: fs => do
    let b ← Format.dependsOnNextWith m o item f
    if b then .ok true else Format.branchDependsOnNext m o item fs

end

/-- `module.get_format(level).depends_on_next(module)`, cf. `itemMatchBounds`. -/
def Format.itemDependsOnNext (m : Module) (o : BuildOpts) : Nat → Nat → Run Bool
  | 0, _ => .panic
  | depth + 1, level => do
    let i ← Outcome.ofPanicky (m.get level)
    Format.dependsOnNextWith m o (Format.itemDependsOnNext m o depth) i.format

/-- `Format::depends_on_next` (src/format.rs:433-481). -/
def Format.dependsOnNext (m : Module) (o : BuildOpts) (f : Format) : Run Bool :=
  Format.dependsOnNextWith m o (Format.itemDependsOnNext m o m.items.length) f

/-- `struct Compiler` (src/decoder.rs:549-554) without the module; slots of `decoders` not compiled yet
hold `Decoder::Fail`.  The queue is used as a stack. -/
structure CompSt where
  decoders : List Decoder
  map : List ((Nat × Next) × Nat)
  queue : List (Format × Next × Nat)

namespace Compiler

/-- `Compiler::new` (src/decoder.rs:557-567). -/
def new : CompSt := ⟨[], [], []⟩

/-- `queue_compile` (src/decoder.rs:583-588). -/
def queueCompile (st : CompSt) (f : Format) (next : Next) : Nat × CompSt :=
  (st.decoders.length,
    { st with
      decoders := st.decoders ++ [.fail]
      queue := (f, next, st.decoders.length) :: st.queue })

/-- `decoder_map.get(&key)` (std). -/
def mapGet [DecidableEq Next] (key : Nat × Next) : List ((Nat × Next) × Nat) → Option Nat
  | [] => none
  | (k, n) :: rest => if k = key then some n else mapGet key rest

/-- The lookup-or-queue part of the `ItemVar` arm (src/decoder.rs:613-620). -/
def callIndex [DecidableEq Next] (st : CompSt) (level : Nat) (f : Format) (next : Next) : Nat × CompSt :=
  match mapGet (level, next) st.map with
  | some n => (n, st)
  | none =>
    let r := queueCompile st f next
    (r.1, { r.2 with map := ((level, next), r.1) :: r.2.map })

/-- The test of the `PeekNot` arm (src/decoder.rs:815-824): `MAX_LOOKAHEAD` is 1024. -/
def peekNotAllowed (b : Bounds) : Bool :=
  match b.max with
  | none => false
  | some n => decide (n ≤ 1024)

/-- The alternatives `RepeatCount(U32(count), a)` for `count in 0..=max` (src/decoder.rs:759-766);
`count as u32` drops high bits. -/
def countFormats (a : Format) (max : Nat) : List Format :=
  (List.range (max + 1)).map fun count => .repeatCount (.lit .b32 (Fin.ofNat _ count)) a

/-- `MatchTree::build(..)` or `Err(..)` -/
def buildOrErr (m : Module) (o : BuildOpts) (fs : List Format) (next : Next) : Outcome Unit MatchTree := do
  let t ← Outcome.lift (MatchTree.build m o.ord o.fuel fs next)
  Outcome.ofOption () t

end Compiler

open Compiler in
mutual

/-- `Compiler::compile_format` (src/decoder.rs:604-906). -/
def compileFormat [DecidableEq Next] (m : Module) (o : BuildOpts) :
    Format → Next → CompSt → Outcome Unit (Decoder × CompSt)
  | .itemVar level args views, next, st => do
    let i ← Outcome.ofPanicky (m.get level)
    let dep ← Outcome.lift (i.format.dependsOnNext m o)
    let r := callIndex st level i.format (if dep then next else .empty)
    .ok (.call r.1 (i.args.zip args) (i.views.zip views), r.2)
  | .phantom _, _, st => .ok (.phantom, st)
  | .fail, _, st => .ok (.fail, st)
  | .decodeBytes e f, _, st => do
    let r ← compileFormat m o f .empty st
    .ok (.decodeBytes e r.1, r.2)
  | .parseFromView v f, _, st => do
    let r ← compileFormat m o f .empty st
    .ok (.parseFromView v r.1, r.2)
  | .pos, _, st => .ok (.pos, st)
  | .letView name f, next, st => do
    let r ← compileFormat m o f next st
    .ok (.letView name r.1, r.2)
  | .endOfInput, _, st => .ok (.endOfInput, st)
  | .align n, _, st => .ok (.align n, st)
  | .byte bs, _, st => .ok (.byte bs, st)
  | .skipRemainder, _, st => .ok (.skipRemainder, st)
  | .variant label f, next, st => do
    let r ← compileFormat m o f next st
    .ok (.variant label r.1, r.2)
  | .union fs, next, st => do
    let r ← compileAll m o fs next st
    let t ← buildOrErr m o fs next
    .ok (.branch t r.1, r.2)
  | .unionNondet fs, next, st => do
    let r ← compileAll m o fs next st
    .ok (.parallel r.1, r.2)
  | .tuple fs, next, st => do
    let r ← compileFields m o fs next st
    .ok (.tuple r.1, r.2)
  | .sequence fs, next, st => do
    let r ← compileFields m o fs next st
    .ok (.sequence r.1, r.2)
  | .repeat_ a, next, st => do
    let nullable ← Outcome.ofPanicky (a.isNullable m)
    if nullable then .err ()
    else do
      let r ← compileFormat m o a (.repeat_ a next) st
      let t ← buildOrErr m o [.tuple [a, .repeat_ a], Format.EMPTY] next
      .ok (.while_ t r.1, r.2)
  | .repeat1 a, next, st => do
    let nullable ← Outcome.ofPanicky (a.isNullable m)
    if nullable then .err ()
    else do
      let r ← compileFormat m o a (.repeat_ a next) st
      let t ← buildOrErr m o [Format.EMPTY, .tuple [a, .repeat_ a]] next
      .ok (.until_ t r.1, r.2)
  | .repeatCount e a, next, st => do
    let r ← compileFormat m o a (.repeat_ a next) st
    .ok (.repeatCount e r.1, r.2)
  | .repeatBetween x y a, next, st => do
    let bx ← Outcome.ofPanicky x.bounds
    let min ← Outcome.ofPanicky (Panicky.unwrap bx.asExact)
    let by_ ← Outcome.ofPanicky y.bounds
    let max ← Outcome.ofPanicky (Panicky.unwrap by_.asExact)
    let r ← compileFormat m o a (.repeatBetween (min - 1) (max - 1) a next) st
    let t ← Outcome.lift (MatchTree.build m o.ord o.fuel (countFormats a max) next)
    let t ← Outcome.ofPanicky (Panicky.unwrap t)
    .ok (.repeatBetween t x y r.1, r.2)
  | .repeatUntilLast e a, next, st => do
    let r ← compileFormat m o a (.repeat_ a next) st
    .ok (.repeatUntilLast e r.1, r.2)
  | .forEach e label a, next, st => do
    let r ← compileFormat m o a (.repeat_ a next) st
    .ok (.forEach e label r.1, r.2)
  | .repeatUntilSeq e a, next, st => do
    let r ← compileFormat m o a (.repeat_ a next) st
    .ok (.repeatUntilSeq e r.1, r.2)
  | .accumUntil done update init _ a, next, st => do
    let r ← compileFormat m o a (.repeat_ a next) st
    .ok (.accumUntil done update init r.1, r.2)
  | .maybe e a, _, st => do
    let r ← compileFormat m o a .empty st
    .ok (.maybe e r.1, r.2)
  | .peek a, _, st => do
    let r ← compileFormat m o a .empty st
    .ok (.peek r.1, r.2)
  | .peekNot a, _, st => do
    let b ← Outcome.ofPanicky (a.lookaheadBounds m)
    if peekNotAllowed b then do
      let r ← compileFormat m o a .empty st
      .ok (.peekNot r.1, r.2)
    else .err ()
  | .slice e a, _, st => do
    let r ← compileFormat m o a .empty st
    .ok (.slice e r.1, r.2)
  | .bits a, _, st => do
    let r ← compileFormat m o a .empty st
    .ok (.bits r.1, r.2)
  | .withRelativeOffset base off a, _, st => do
    let r ← compileFormat m o a .empty st
    .ok (.withRelativeOffset base off r.1, r.2)
  | .map a e, next, st => do
    let r ← compileFormat m o a next st
    .ok (.map r.1 e, r.2)
  | .where_ a e strict, next, st => do
    let r ← compileFormat m o a next st
    .ok (.where_ r.1 e strict, r.2)
  | .enforce a, next, st => do
    let r ← compileFormat m o a next st
    .ok (.enforce r.1, r.2)
  | .permit a e, next, st => do
    let r ← compileFormat m o a next st
    .ok (.permit r.1 e, r.2)
  | .compute e, _, st => .ok (.compute e, st)
  | .let_ name e a, next, st => do
    let r ← compileFormat m o a next st
    .ok (.let_ name e r.1, r.2)
  | .match_ head branches, next, st => do
    let r ← compileBranches m o branches next st
    .ok (.match_ head r.1, r.2)
  | .dynamic name lengths values a, next, st => do
    let r ← compileFormat m o a next st
    .ok (.dynamic name lengths values r.1, r.2)
  | .apply name, _, st => .ok (.apply name, st)
  | .letFormat a name b, next, st => do
    let r ← compileFormat m o a (.cat b next) st
    let q ← compileFormat m o b next r.2
    .ok (.letFormat r.1 name q.1, q.2)
  | .monadSeq a b, next, st => do
    let r ← compileFormat m o a (.cat b next) st
    let q ← compileFormat m o b next r.2
    .ok (.monadSeq r.1 q.1, q.2)
  | .hint a, next, st => compileFormat m o a next st
  | .liftedNone, _, st => .ok (.liftedNone, st)
  | .liftedSome a, next, st => do
    let r ← compileFormat m o a next st
    .ok (.liftedSome r.1, r.2)
  | .captureBytes v len, _, st => .ok (.captureBytes v len, st)
  | .readArray v len kind, _, st => .ok (.readArray v len kind, st)
  | .reifyView v, _, st => .ok (.reifyView v, st)

/-- the loop over the branches of a union (src/decoder.rs:657-660, 668-672) -/
def compileAll [DecidableEq Next] (m : Module) (o : BuildOpts) :
    List Format → Next → CompSt → Outcome Unit (List Decoder × CompSt)
  | [], _, st => .ok ([], st)
  | f :: fs, next, st => do
    let r ← compileFormat m o f next st
    let q ← compileAll m o fs next r.2
    .ok (r.1 :: q.1, q.2)

/-- the loop over the fields of a tuple or sequence (src/decoder.rs:676-686, 689-699) -/
def compileFields [DecidableEq Next] (m : Module) (o : BuildOpts) :
    List Format → Next → CompSt → Outcome Unit (List Decoder × CompSt)
  | [], _, st => .ok ([], st)
  | f :: fs, next, st => do
    let r ← compileFormat m o f (.sequence fs next) st
    let q ← compileFields m o fs next r.2
    .ok (r.1 :: q.1, q.2)

/-- the branches of a match (src/decoder.rs:863-869) -/
def compileBranches [DecidableEq Next] (m : Module) (o : BuildOpts) :
    List (Pattern × Format) → Next → CompSt → Outcome Unit (List (Pattern × Decoder) × CompSt)
  | [], _, st => .ok ([], st)
  | (p, f) :: fs, next, st => do
    let r ← compileFormat m o f next st
    let q ← compileBranches m o fs next r.2
    .ok ((p, r.1) :: q.1, q.2)

end

namespace Compiler

/-- The loop of `compile_program` (src/decoder.rs:576-579). -/
def drain [DecidableEq Next] (m : Module) (o : BuildOpts) : Nat → CompSt → Outcome Unit CompSt
  | 0, _ => .fuel
  | n + 1, st =>
    match st.queue with
    | [] => .ok st
    | (f, next, k) :: rest => do
      let r ← compileFormat m o f next { st with queue := rest }
      drain m o n { r.2 with decoders := r.2.decoders.set k r.1 }

/-- `Compiler::compile_program` (src/decoder.rs:569-581) after type checking. -/
def compileProgram [DecidableEq Next] (m : Module) (o : BuildOpts) (fuel : Nat) (f : Format) :
    Outcome Unit (List Decoder) := do
  let st ← drain m o fuel (queueCompile new f .empty).2
  .ok st.decoders

/-- `Compiler::compile_one` (src/decoder.rs:590-594). -/
def compileOne [DecidableEq Next] (o : BuildOpts) (f : Format) : Run (Option Decoder) :=
  match compileFormat Module.empty o f .empty new with
  | .ok r => .ok (some r.1)
  | .err _ => .ok none
  | .panic => .panic
  | .fuel => .fuel

/-- The environment in which a compiled program runs. -/
def env [DecidableEq Next] (o : BuildOpts) (program : List Decoder) : Env :=
  ⟨program, compileOne o⟩

end Compiler
end Doodle
