import Verif.Model.MatchTree
import Verif.Model.WithErr
import Verif.Model.Huffman

/-!
Model of the interpreter: `Decoder`, `Decoder::parse`, `Program::run` (/repo/src/decoder.rs:478-547,
1157-1850).

* Every function takes a bound on the recursion depth / number of iterations, see `Outcome`.
* Error values keep their kind and offset; the scope and the trace attached to them are left out.
* Memory allocation always succeeds.
* `Dynamic` compiles a format while parsing; the compiler is a parameter (`Env.compileOne`), so that the
  same function can be used with every outcome of its hash sets.
-/

namespace Doodle

open Num (BitWidth)

/-- `enum DecodeErrorKind` (src/error.rs), kind and offsets. -/
inductive DecodeErr where
  | fail (offset : Nat)
  | noValidBranch (offset : Nat)
  | trailing (byte : UInt8) (offset : Nat)
  | overbyte (offset : Nat)
  | overrun (size offset : Nat)
  | unexpected (byte : UInt8) (expected : ByteSet) (offset : Nat)
  | badSeek (target len : Nat)
  | badWhere (e : Expr) (v : Value)

/-- `enum Decoder` (src/decoder.rs:480-529).  `LiftedOption` is split into its two cases, `Dynamic` has
`DynFormat::Huffman` built in, and the `TypeHint` of `AccumUntil` is left out. -/
inductive Decoder where
  | call (n : Nat) (args : List (String × Expr)) (views : List (String × ViewExpr))
  | pos
  | fail
  | endOfInput
  | align (n : Nat)
  | byte (bs : ByteSet)
  | variant (label : String) (d : Decoder)
  | parallel (ds : List Decoder)
  | branch (tree : MatchTree) (ds : List Decoder)
  | tuple (ds : List Decoder)
  | sequence (ds : List Decoder)
  | while_ (tree : MatchTree) (d : Decoder)
  | until_ (tree : MatchTree) (d : Decoder)
  | repeatCount (count : Expr) (d : Decoder)
  | repeatUntilLast (cond : Expr) (d : Decoder)
  | repeatUntilSeq (cond : Expr) (d : Decoder)
  | maybe (cond : Expr) (d : Decoder)
  | peek (d : Decoder)
  | peekNot (d : Decoder)
  | slice (size : Expr) (d : Decoder)
  | bits (d : Decoder)
  | withRelativeOffset (base offset : Expr) (d : Decoder)
  | map (d : Decoder) (e : Expr)
  | where_ (d : Decoder) (e : Expr) (strict : Bool)
  | compute (e : Expr)
  | let_ (name : String) (e : Expr) (d : Decoder)
  | match_ (head : Expr) (branches : List (Pattern × Decoder))
  | dynamic (name : String) (lengths : Expr) (values : Option Expr) (d : Decoder)
  | apply (name : String)
  | repeatBetween (tree : MatchTree) (min max : Expr) (d : Decoder)
  | forEach (e : Expr) (label : String) (d : Decoder)
  | skipRemainder
  | decodeBytes (bytes : Expr) (d : Decoder)
  | parseFromView (v : ViewExpr) (d : Decoder)
  | letFormat (d : Decoder) (name : String) (e : Decoder)
  | monadSeq (d e : Decoder)
  | accumUntil (done update init : Expr) (d : Decoder)
  | liftedNone
  | liftedSome (d : Decoder)
  | letView (name : String) (d : Decoder)
  | captureBytes (v : ViewExpr) (len : Expr)
  | readArray (v : ViewExpr) (len : Expr) (kind : BaseKind)
  | reifyView (v : ViewExpr)
  | phantom
  | enforce (d : Decoder)
  | permit (d : Decoder) (fallback : Expr)

/-- The success case of `EDecodeResult<(Value, ReadCtxt)>` (src/error.rs): value, rest of the input, and
the non-critical errors logged. -/
abbrev Parsed := WithErr (Value × ReadCtxt) DecodeErr

/-- `struct Program` (src/decoder.rs:531-533), and how `Dynamic` compiles a format: `some d` is
`Ok(d)`, `none` is `Err`. -/
structure Env where
  program : List Decoder
  compileOne : Format → Run (Option Decoder)

namespace WithErr
variable {α β E : Type}

/-- `WithErr::join` (src/util.rs:139-144) where the continuation may also panic or run out of fuel. -/
def joinO (s : WithErr α E) (f : α → Outcome E (WithErr β E)) : Outcome E (WithErr β E) := do
  let ret ← f s.value
  .ok ⟨ret.value, ret.errs ++ s.errs⟩

end WithErr

namespace Decoder

/-- the state of the sequence-building loops: values parsed so far and the rest of the input -/
abbrev Acc := WithErr (List Value × ReadCtxt) DecodeErr

/-- `v.push(va); (v, next_input)` inside `join` / `fold` (e.g. src/decoder.rs:1239-1245) -/
def push (acc : Acc) (w : Parsed) : Acc :=
  ⟨(acc.value.1 ++ [w.value.1], w.value.2), w.errs ++ acc.errs⟩

/-- `WithErr::fold` (src/util.rs:152-165) as used by `Tuple`, `Sequence`, `ForEach` and `RepeatCount`
(src/decoder.rs:1234-1263, 1352-1386). -/
def foldItems {σ : Type} (p : σ → ReadCtxt → Outcome DecodeErr Parsed) :
    List σ → Acc → Outcome DecodeErr Acc
  | [], acc => .ok acc
  | x :: xs, acc => do
    let w ← p x acc.value.2
    foldItems p xs (push acc w)

/-- The loop of `While` (src/decoder.rs:1265-1283). -/
def whileLoop (tree : MatchTree) (p : ReadCtxt → Outcome DecodeErr Parsed) :
    Nat → Acc → Outcome DecodeErr Acc
  | 0, _ => .fuel
  | n + 1, acc =>
    match tree.matches acc.value.2 with
    | none => .err (.noValidBranch acc.value.2.offset)
    | some 0 => do
      let w ← p acc.value.2
      whileLoop tree p n (push acc w)
    | some (_ + 1) => .ok acc

/-- The loop of `Until` (src/decoder.rs:1286-1306). -/
def untilLoop (tree : MatchTree) (p : ReadCtxt → Outcome DecodeErr Parsed) :
    Nat → Acc → Outcome DecodeErr Acc
  | 0, _ => .fuel
  | n + 1, acc => do
    let w ← p acc.value.2
    match tree.matches w.value.2 with
    | none => .err (.noValidBranch w.value.2.offset)
    | some 0 => .ok (push acc w)
    | some (_ + 1) => untilLoop tree p n (push acc w)

/-- The loop of `RepeatBetween` (src/decoder.rs:1390-1417): the tree is matched against the input
`start` that the whole repetition started with. -/
def betweenLoop (tree : MatchTree) (min max : Nat) (start : ReadCtxt)
    (p : ReadCtxt → Outcome DecodeErr Parsed) : Nat → Acc → Outcome DecodeErr Acc
  | 0, _ => .fuel
  | n + 1, acc =>
    match tree.matches start with
    | none => .err (.noValidBranch start.offset)
    | some ix =>
      if ix = 0 ∨ acc.value.1.length = max then
        if acc.value.1.length < min then .panic else .ok acc
      else do
        let w ← p acc.value.2
        betweenLoop tree min max start p n (push acc w)

/-- The loops of `RepeatUntilLast` and `RepeatUntilSeq` (src/decoder.rs:1428-1465); `done` is evaluated
on the last value and on all values including it. -/
def untilDoneLoop (done : Value → List Value → Panicky Bool) (p : ReadCtxt → Outcome DecodeErr Parsed) :
    Nat → Acc → Outcome DecodeErr Acc
  | 0, _ => .fuel
  | n + 1, acc => do
    let w ← p acc.value.2
    let d ← Outcome.ofPanicky (done w.value.1 (acc.value.1 ++ [w.value.1]))
    if d then .ok (push acc w) else untilDoneLoop done p n (push acc w)

/-- The loop of `AccumUntil` (src/decoder.rs:1467-1490). -/
def accumLoop (done : Value → List Value → Panicky Bool) (update : Value → Value → Panicky Value)
    (p : ReadCtxt → Outcome DecodeErr Parsed) : Nat → Value → Acc → Outcome DecodeErr (Value × Acc)
  | 0, _, _ => .fuel
  | n + 1, accum, acc => do
    let d ← Outcome.ofPanicky (done accum acc.value.1)
    if d then .ok (accum, acc)
    else do
      let w ← p acc.value.2
      let accum' ← Outcome.ofPanicky (update accum w.value.1)
      accumLoop done update p n accum' (push acc w)

/-- The loop of `Parallel` (src/decoder.rs:1225-1233). -/
def parallelLoop (p : Decoder → Outcome DecodeErr Parsed) (offset : Nat) :
    Nat → List Decoder → Outcome DecodeErr Parsed
  | _, [] => .err (.fail offset)
  | index, d :: ds =>
    match p d with
    | .ok w => .ok (w.map fun r => (.branch index r.1, r.2))
    | .err _ => parallelLoop p offset (index + 1) ds
    | .panic => .panic
    | .fuel => .fuel

/-- The loop of `Match` (src/decoder.rs:1585-1600); no matching pattern is the panic. -/
def matchLoop (p : List (String × Value) → Decoder → Outcome DecodeErr Parsed) (head : Value) :
    Nat → List (Pattern × Decoder) → Outcome DecodeErr Parsed
  | _, [] => .panic
  | index, (pat, d) :: rest =>
    match head.matchesPat pat with
    | some bs => do
      let w ← p bs d
      .ok (w.map fun r => (.branch index r.1, r.2))
    | none => matchLoop p head (index + 1) rest

/-- `Decoder::eval_view_expr` (src/decoder.rs:1703-1721). -/
def evalView {δ : Type} (s : Scope δ) : ViewExpr → Outcome DecodeErr ReadCtxt
  | .var name => Outcome.ofPanicky (Panicky.unwrap (s.getView name))
  | .offset base e => do
    let v ← Outcome.ofPanicky (e.evalValue s)
    let off ← Outcome.ofPanicky v.unwrapUsize
    let c ← evalView s base
    let r ← Outcome.ofPanicky (c.splitAt off)
    match r with
    | some (_, w) => .ok w
    | none => .err (.overrun off c.offset)

/-- `for (name, e) in es { .. e.eval_value(scope) .. }` of `Call` (src/decoder.rs:1168-1171). -/
def evalArgs {δ : Type} (s : Scope δ) : List (String × Expr) → Outcome DecodeErr (List (String × ViewOrValue))
  | [] => .ok []
  | (name, e) :: rest => do
    let v ← Outcome.ofPanicky (e.evalValue s)
    let r ← evalArgs s rest
    .ok ((name, .value v) :: r)

/-- `for (name, v) in vs { .. eval_view_expr(scope, v)? .. }` of `Call` (src/decoder.rs:1172-1175). -/
def evalViewArgs {δ : Type} (s : Scope δ) :
    List (String × ViewExpr) → Outcome DecodeErr (List (String × ViewOrValue))
  | [] => .ok []
  | (name, v) :: rest => do
    let c ← evalView s v
    let r ← evalViewArgs s rest
    .ok ((name, .view c) :: r)

/-- `expr.eval_value(scope).unwrap_usize()` -/
def evalUsize {δ : Type} (e : Expr) (s : Scope δ) : Panicky Nat := do
  let v ← e.evalValue s
  v.unwrapUsize

/-- `expr.eval_value(scope).unwrap_bool()` -/
def evalBool {δ : Type} (e : Expr) (s : Scope δ) : Panicky Bool := do
  let v ← e.evalValue s
  v.unwrapBool

/-- `expr.eval_lambda(scope, &arg).unwrap_bool()` -/
def lambdaBool {δ : Type} (e : Expr) (s : Scope δ) (arg : Value) : Panicky Bool := do
  let v ← e.evalLambda s arg
  v.unwrapBool

/-- `seq_vals.into_iter().map(|v| v.get_as_u8()).collect()` (src/decoder.rs:1309-1316). -/
def bytesOf : List Value → Panicky (List UInt8)
  | [] => .ok []
  | v :: vs => do
    let b ← v.getAsU8
    let bs ← bytesOf vs
    .ok (b :: bs)

/-- The items of `expr.eval_value(scope).get_sequence().expect(..)`. -/
def evalItems {δ : Type} (e : Expr) (s : Scope δ) : Panicky (List Value) := do
  let v ← e.evalValue s
  let q ← Panicky.unwrap v.getSequence
  .ok q.items

/-- one byte as eight bytes 0/1, least significant bit first (src/decoder.rs:1512-1514) -/
def bitsOfByte (b : UInt8) : List UInt8 :=
  (List.range 8).map fun i => if b.toNat.testBit i then 1 else 0

/-- the bits of the remaining input (src/decoder.rs:1510-1515) -/
def bitsOf (bytes : List UInt8) : List UInt8 := bytes.flatMap bitsOfByte

/-- What `Bits` does with the result of the inner decoder (src/decoder.rs:1517-1524). -/
def finishBits (input : ReadCtxt) (r : Value × ReadCtxt) : Outcome DecodeErr Parsed := do
  let bitsRem ← Outcome.ofPanicky r.2.remaining
  let inputRem ← Outcome.ofPanicky input.remaining
  if inputRem.length < bitsRem.length / 8 then .panic
  else do
    let bytesRead := inputRem.length - bitsRem.length / 8
    let sp ← Outcome.ofPanicky (input.splitAt bytesRead)
    match sp with
    | some (_, c) => .ok (WithErr.new (r.1, c))
    | none => .err (.overrun bytesRead input.offset)

/-- The loop of `CaptureBytes` (src/decoder.rs:1638-1650), `n` bytes left. -/
def captureLoop : Nat → ReadCtxt → List Value → Outcome DecodeErr (List Value)
  | 0, _, acc => .ok acc
  | n + 1, buf, acc =>
    match buf.readByte with
    | none => .err (.overbyte buf.offset)
    | some (b, buf') => captureLoop n buf' (acc ++ [.u8 b])

/-- `read_base` (src/decoder.rs:1724-1757); little-endian kinds are `unimplemented!`. -/
def readBase (buf : ReadCtxt) (kind : BaseKind) : Outcome DecodeErr (Value × ReadCtxt) :=
  match kind.width with
  | .b8 =>
    match buf.readByte with
    | none => .err (.overbyte buf.offset)
    | some (b, buf') => .ok (.u8 b, buf')
  | w =>
    if kind.be then
      match buf.readBe (w.bits / 8) with
      | none => .err (.overrun (w.bits / 8) buf.offset)
      | some (n, buf') => do
        let v ← Outcome.ofPanicky (Value.mkNum (.fixed w) n)
        .ok (v, buf')
    else .panic

/-- The loop of `ReadArray` (src/decoder.rs:1659-1666), `n` elements left. -/
def readArrayLoop (kind : BaseKind) : Nat → ReadCtxt → List Value → Outcome DecodeErr (List Value)
  | 0, _, acc => .ok acc
  | n + 1, buf, acc => do
    let r ← readBase buf kind
    readArrayLoop kind n r.2 (acc ++ [r.1])

/-- the `U8` elements of `value_to_vec_usize` (src/decoder.rs:1764-1769) -/
def usizeList : List Value → Panicky (List Nat)
  | [] => .ok []
  | v :: vs =>
    match v.coerceMapped with
    | .num (.fixed .b8) n => do
      let ns ← usizeList vs
      .ok (n.val :: ns)
    | _ => .panic

/-- `value_to_vec_usize` (src/decoder.rs:1759-1770). -/
def valueToVecUsize : Value → Panicky (List Nat)
  | .seq s => usizeList s.iter
  | _ => .panic

/-- The two expressions of `DynFormat::Huffman` (src/decoder.rs:1602-1615): code lengths and optional
values. -/
def evalHuffman {δ : Type} (s : Scope δ) (lengths : Expr) (values : Option Expr) :
    Panicky (List Nat × Option (List Nat)) := do
  let lv ← lengths.eval s
  let ls ← valueToVecUsize lv
  match values with
  | none => .ok (ls, none)
  | some e => do
    let vv ← e.eval s
    let vs ← valueToVecUsize vv
    .ok (ls, some vs)

/-- One alternative of `make_huffman_codes`: `Map(Tuple [Byte {b}, ..], _ -> n)`, with `bit_range` and
`is_bit` (src/decoder.rs:1792-1822). -/
def huffmanBranch (code : List UInt8 × Nat) : Format :=
  .map (.tuple (code.1.map fun b => .byte (ByteSet.fromIter [b])))
    (.lambda "_" (.lit .b16 (Fin.ofNat _ code.2)))

/-- The format `make_huffman_codes` returns (src/decoder.rs:1772-1808), after the re-ordering of the
lengths by the values. -/
def huffmanFormat (lengths : List Nat) (values : Option (List Nat)) : Panicky Format := do
  let codes ← Huffman.interpHuffman lengths values
  .ok (.union (codes.map huffmanBranch))

/-- `Decoder::parse` (src/decoder.rs:1159-1700). -/
def parse (env : Env) : Nat → Decoder → Scope Decoder → ReadCtxt → Outcome DecodeErr Parsed
  | 0, _, _, _ => .fuel
  | n + 1, d, scope, input =>
    match d with
    | .call k args views => do
      let es ← evalArgs scope args
      let vs ← evalViewArgs scope views
      let d ← Outcome.ofPanicky (Panicky.unwrap env.program[k]?)
      parse env n d (.multi (es ++ vs) .empty) input
    | .phantom => .ok (.new (.phantom, input))
    | .fail => .err (.fail input.offset)
    | .pos => .ok (.new (.num (.fixed .b64) (Fin.ofNat _ input.offset), input))
    | .skipRemainder => .ok (.new (.unit, input.skipRemainder))
    | .endOfInput =>
      match input.readByte with
      | none => .ok (.new (.unit, input))
      | some (b, _) => .err (.trailing b input.offset)
    | .align k =>
      if k = 0 then .panic
      else do
        let skip := (k - input.offset % k) % k
        let r ← Outcome.ofPanicky (input.splitAt skip)
        match r with
        | some (_, c) => .ok (.new (.unit, c))
        | none => .err (.overrun skip input.offset)
    | .byte bs =>
      match input.readByte with
      | none => .err (.overbyte input.offset)
      | some (b, c) => if bs.contains b then .ok (.new (.u8 b, c)) else .err (.unexpected b bs c.offset)
    | .variant label d => do
      let w ← parse env n d scope input
      .ok (w.map fun r => (.variant label r.1, r.2))
    | .branch tree ds =>
      match tree.matches input with
      | none => .err (.noValidBranch input.offset)
      | some index => do
        let d ← Outcome.ofPanicky (Panicky.unwrap ds[index]?)
        let w ← parse env n d scope input
        .ok (w.map fun r => (.branch index r.1, r.2))
    | .parallel ds => parallelLoop (fun d => parse env n d scope input) input.offset 0 ds
    | .tuple ds => do
      let acc ← foldItems (fun d c => parse env n d scope c) ds (.new ([], input))
      .ok (acc.map fun r => (.tuple r.1, r.2))
    | .sequence ds => do
      let acc ← foldItems (fun d c => parse env n d scope c) ds (.new ([], input))
      .ok (acc.map fun r => (.seq (.strict r.1), r.2))
    | .while_ tree a => do
      let acc ← whileLoop tree (fun c => parse env n a scope c) n (.new ([], input))
      .ok (acc.map fun r => (.seq (.strict r.1), r.2))
    | .until_ tree a => do
      let acc ← untilLoop tree (fun c => parse env n a scope c) n (.new ([], input))
      .ok (acc.map fun r => (.seq (.strict r.1), r.2))
    | .decodeBytes e a => do
      let vs ← Outcome.ofPanicky (evalItems e scope)
      let bs ← Outcome.ofPanicky (bytesOf vs)
      let w ← parse env n a scope (.new bs)
      w.joinO fun r =>
        match r.2.readByte with
        | some (b, _) => .ok (.withErr (r.1, input) (.trailing b r.2.offset))
        | none => .ok (.new (r.1, input))
    | .parseFromView v a => do
      let c ← evalView scope v
      let w ← parse env n a scope c
      .ok (w.map fun r => (r.1, input))
    | .letFormat a name b => do
      let w ← parse env n a scope input
      w.joinO fun r => parse env n b (.single name r.1 scope) r.2
    | .monadSeq a b => do
      let w ← parse env n a scope input
      w.joinO fun r => parse env n b scope r.2
    | .forEach e label a => do
      let vs ← Outcome.ofPanicky (evalItems e scope)
      let acc ← foldItems (fun v c => parse env n a (.single label v scope) c) vs (.new ([], input))
      .ok (acc.map fun r => (.seq (.strict r.1), r.2))
    | .repeatCount e a => do
      let count ← Outcome.ofPanicky (evalUsize e scope)
      let acc ← foldItems (fun (_ : Unit) c => parse env n a scope c) (List.replicate count ())
        (.new ([], input))
      .ok (acc.map fun r => (.seq (.strict r.1), r.2))
    | .repeatBetween tree x y a => do
      let min ← Outcome.ofPanicky (evalUsize x scope)
      let max ← Outcome.ofPanicky (evalUsize y scope)
      let acc ← betweenLoop tree min max input (fun c => parse env n a scope c) n (.new ([], input))
      .ok (acc.map fun r => (.seq (.strict r.1), r.2))
    | .maybe e a => do
      let present ← Outcome.ofPanicky (evalBool e scope)
      if present then do
        let w ← parse env n a scope input
        .ok (w.map fun r => (.optSome r.1, r.2))
      else .ok (.new (.optNone, input))
    | .repeatUntilLast e a => do
      let acc ← untilDoneLoop (fun last _ => lambdaBool e scope last) (fun c => parse env n a scope c) n
        (.new ([], input))
      .ok (acc.map fun r => (.seq (.strict r.1), r.2))
    | .repeatUntilSeq e a => do
      let acc ← untilDoneLoop (fun _ vs => lambdaBool e scope (.seq (.strict vs)))
        (fun c => parse env n a scope c) n (.new ([], input))
      .ok (acc.map fun r => (.seq (.strict r.1), r.2))
    | .accumUntil done update init a => do
      let accum ← Outcome.ofPanicky (init.evalValue scope)
      let r ← accumLoop (fun accum vs => lambdaBool done scope (.tuple [accum, .seq (.strict vs)]))
        (fun accum v => update.evalLambda scope (.tuple [accum, v]))
        (fun c => parse env n a scope c) n accum (.new ([], input))
      .ok (r.2.map fun q => (.tuple [r.1, .seq (.strict q.1)], q.2))
    | .peek a => do
      let w ← parse env n a scope input
      .ok (w.map fun r => (r.1, input))
    | .peekNot a =>
      match parse env n a scope input with
      | .ok _ => .err (.fail input.offset)
      | .err _ => .ok (.new (.tuple [], input))
      | .panic => .panic
      | .fuel => .fuel
    | .slice e a => do
      let size ← Outcome.ofPanicky (evalUsize e scope)
      let sp ← Outcome.ofPanicky (input.splitAt size)
      match sp with
      | none => .err (.overrun size input.offset)
      | some (head, tail) => do
        let w ← parse env n a scope head
        .ok (w.map fun r => (r.1, tail))
    | .bits a => do
      let bytes ← Outcome.ofPanicky input.remaining
      let w ← parse env n a scope (.new (bitsOf bytes))
      w.joinO (finishBits input)
    | .withRelativeOffset base off a => do
      let b ← Outcome.ofPanicky (evalUsize base scope)
      let o ← Outcome.ofPanicky (evalUsize off scope)
      let target ← Outcome.ofPanicky (addUsize b o)
      match input.seekTo target with
      | none => .err (.badSeek target input.input.length)
      | some c => do
        let w ← parse env n a scope c
        .ok (w.map fun r => (r.1, input))
    | .map d e => do
      let w ← parse env n d scope input
      let v ← Outcome.ofPanicky (e.evalLambda scope w.value.1)
      .ok (w.map fun r => (.mapped r.1 v, r.2))
    | .where_ d e strict => do
      let w ← parse env n d scope input
      w.joinO fun r => do
        let ok ← Outcome.ofPanicky (lambdaBool e scope r.1)
        if ok then .ok (.new r)
        else if strict then .err (.badWhere e r.1)
        else .ok (.withErr r (.badWhere e r.1))
    | .compute e => do
      let v ← Outcome.ofPanicky (e.evalValue scope)
      .ok (.new (v, input))
    | .let_ name e d => do
      let v ← Outcome.ofPanicky (e.evalValue scope)
      parse env n d (.single name v scope) input
    | .letView name d => parse env n d (.view name input scope) input
    | .match_ head branches => do
      let v ← Outcome.ofPanicky (head.eval scope)
      matchLoop (fun bs d => parse env n d (scope.withBindings bs) input) v 0 branches
    | .dynamic name lengths values d => do
      let lv ← Outcome.ofPanicky (evalHuffman scope lengths values)
      let f ← Outcome.ofPanicky (huffmanFormat lv.1 lv.2)
      match env.compileOne f with
      | .ok (some dyn) => parse env n d (.decoder name dyn scope) input
      | .ok none => .panic
      | .panic => .panic
      | .fuel => .fuel
    | .apply name => do
      let d ← Outcome.ofPanicky (Panicky.unwrap (scope.getDecoder name))
      parse env n d scope input
    | .liftedNone => .ok (.new (.optNone, input))
    | .liftedSome d => do
      let w ← parse env n d scope input
      .ok (w.map fun r => (.optSome r.1, r.2))
    | .captureBytes v len => do
      let k ← Outcome.ofPanicky (evalUsize len scope)
      let c ← evalView scope v
      let vs ← captureLoop k c []
      .ok (.new (.seq (.strict vs), input))
    | .readArray v len kind => do
      let k ← Outcome.ofPanicky (evalUsize len scope)
      let c ← evalView scope v
      let vs ← readArrayLoop kind k c []
      .ok (.new (.seq (.strict vs), input))
    | .reifyView v => do
      let c ← evalView scope v
      .ok (.new (.view c.offset, input))
    | .enforce a => do
      let w ← parse env n a scope input
      match w.errs with
      | [] => .ok (.new w.value)
      | e :: _ => .err e
    | .permit a e =>
      match parse env n a scope input with
      | .ok w => .ok (w.map fun r => (.permitOk r.1, r.2))
      | .err err => do
        let v ← Outcome.ofPanicky (e.evalValue scope)
        .ok (.withErr (.permitErr v, input) err)
      | .panic => .panic
      | .fuel => .fuel

/-- `Program::run` (src/decoder.rs:541-546); `extract_warn` (src/util.rs:173-181) prints the
non-critical errors and returns the value, here both are returned. -/
def run (env : Env) (fuel : Nat) (input : ReadCtxt) : Outcome DecodeErr Parsed := do
  let d ← Outcome.ofPanicky (Panicky.unwrap env.program[0]?)
  parse env fuel d .empty input

end Decoder
end Doodle
