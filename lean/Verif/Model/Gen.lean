import Verif.Model.Decoder
import Verif.Model.Parser

/-!
Model of generated decoders: what the Rust code emitted for a decoder does when it runs
(/repo/src/codegen/mod.rs:400-700 translates decoders to `CaseLogic`, 2735-3760 turn that into statements).

* The code generator and the meaning of the statements it emits are modelled together: `exec` gives the effect
  of the block emitted for a decoder on the runtime parser `_input`.  The printing of statements is in
  `Model/RustExpr.lean`.
* Expressions are taken to compute what `Expr::eval` computes: `embed_expr` (880-1760) is not modelled.
* Rust values are `Value`s.  The markers the interpreter puts around values (`Mapped`, `Branch`, `Permit`) do not
  exist in generated code.
* Generated code binds helper variables next to the variables of the format, under fixed names
  (/repo/src/codegen/model.rs:66-153).  They are bound here where the code binds them, and also where it leaves one
  out because a term is simple enough to be used in place.  Parsers and `Result`s in variables are `phantom`.
* Values and views are looked up separately, as in the interpreter.  In Rust a view hides a value of the same name,
  and a program that uses one as the other does not compile.
* An error inside a block is returned from the enclosing closure or function (`?`, `return Err(..)`).
-/

namespace Doodle
namespace Gen

open Rt (Parser OpRes PErr)

/-- Effect of a block of generated code on its parser: a value, an error returned to the caller, or a panic; `fuel`
when the bound on the recursion depth was too small to tell. -/
inductive Res (α : Type) where
  | ok (a : α) (p : Parser)
  | err (e : PErr) (p : Parser)
  | panic
  | fuel

namespace Res
variable {α β : Type}

/-- `let x = ..?; ..` -/
def bind : Res α → (α → Parser → Res β) → Res β
  | .ok a p, f => f a p
  | .err e p, _ => .err e p
  | .panic, _ => .panic
  | .fuel, _ => .fuel

/-- an operation of the parser, with `?` -/
def op : OpRes α → Res α
  | .ok a p => .ok a p
  | .err e p => .err e p
  | .panic => .panic

/-- code that does not use the parser and can only panic -/
def pure (p : Parser) : Panicky α → Res α
  | .ok a => .ok a p
  | .panic => .panic

end Res

/-- scopes of generated code: what a `Dynamic` binds is the closure of `parse_huffman`, which keeps a tree, or
always fails (src/prelude.rs:261-299) -/
abbrev Env := Scope (Option Huffman.Node)

/-! ### match trees -/

mutual
/-- `expand_matchtree` (src/codegen/mod.rs:742-833).  A full byte set among several branches is `unreachable!` in the
code generator; here the generated code panics. -/
def treeCode : MatchTree → Parser → Res Nat
  | .node a [], p =>
    match a with
    | some ix => .ok ix p
    | none => .err .excludedBranch p
  | .node a [(bs, t)], p =>
    (Res.op p.readByte).bind fun b p' =>
      if bs.contains b then treeCode t p'
      else
        match a with
        | some ix => .ok ix p'
        | none => .err .excludedBranch p'
  | .node _ (b1 :: b2 :: bs), p =>
    if (b1 :: b2 :: bs).any fun x => x.1.isFull then .panic
    else (Res.op p.readByte).bind fun b p' => treeCases (b1 :: b2 :: bs) b p'

/-- the cases of the `match` on the next byte (src/codegen/mod.rs:795-831) -/
def treeCases : List (ByteSet × MatchTree) → UInt8 → Parser → Res Nat
  | [], _, p => .err .excludedBranch p
  | (bs, t) :: rest, b, p => if bs.contains b then treeCode t p else treeCases rest b p
end

/-- `embed_matchtree` (src/codegen/mod.rs:741-869): the tree is descended in a peek context. -/
def matchTree (t : MatchTree) (p : Parser) : Res Nat :=
  (treeCode t p.openPeek).bind fun ix p' => (Res.op p'.closePeek).bind fun _ p'' => .ok ix p''

/-! ### repetition -/

/-- the vector of the values collected so far, as a variable -/
def accum (vs : List Value) (s : Env) : Env := .single "accum" (.seq (.strict vs)) s

/-- `RepeatLogic::Repeat0ContinueOnMatch` (src/codegen/mod.rs:3002-3029). -/
def whileLoop (tree : MatchTree) (elt : Env → Parser → Res Value) (s : Env) :
    Nat → List Value → Parser → Res (List Value)
  | 0, _, _ => .fuel
  | n + 1, acc, p =>
    (Res.pure p p.remaining).bind fun rem p =>
      if 0 < rem then
        (matchTree tree p).bind fun ix p =>
          if ix = 0 then
            (elt (.single "matching_ix" (.ofUsize ix) (accum acc s)) p).bind fun v p =>
              whileLoop tree elt s n (acc ++ [v]) p
          else .ok acc p
      else .ok acc p

/-- `RepeatLogic::Repeat1BreakOnMatch` (src/codegen/mod.rs:3030-3062). -/
def untilLoop (tree : MatchTree) (elt : Env → Parser → Res Value) (s : Env) :
    Nat → List Value → Parser → Res (List Value)
  | 0, _, _ => .fuel
  | n + 1, acc, p =>
    (Res.pure p p.remaining).bind fun rem p =>
      if 0 < rem then
        (matchTree tree p).bind fun ix p =>
          if ix = 0 then
            if acc.isEmpty then .err .insufficientRepeats p else .ok acc p
          else
            (elt (.single "matching_ix" (.ofUsize ix) (accum acc s)) p).bind fun v p =>
              untilLoop tree elt s n (acc ++ [v]) p
      else .ok acc p

/-- `RepeatLogic::BetweenCounts` (src/codegen/mod.rs:3063-3097); the bounds are evaluated in every round. -/
def betweenLoop (tree : MatchTree) (min max : Env → Panicky Nat) (elt : Env → Parser → Res Value) (s : Env) :
    Nat → List Value → Parser → Res (List Value)
  | 0, _, _ => .fuel
  | n + 1, acc, p =>
    (Res.pure p p.remaining).bind fun rem p =>
      if 0 < rem then
        (matchTree tree p).bind fun ix p =>
          let s' : Env := .single "reps_left" (.ofUsize ix) (accum acc s)
          (Res.pure p (min s')).bind fun lo p =>
            (Res.pure p (max s')).bind fun hi p =>
              (Res.pure p (Prelude.repeatBetweenFinished (ix == 0) acc.length lo hi)).bind fun r p =>
                match r with
                | none => .err .insufficientRepeats p
                | some true => .ok acc p
                | some false => (elt s' p).bind fun v p => betweenLoop tree min max elt s n (acc ++ [v]) p
      else .ok acc p

/-- the `for` loops of `ForEach` and `ExactCount` (src/codegen/mod.rs:3098-3142). -/
def forLoop {σ : Type} (elt : σ → List Value → Parser → Res Value) :
    List σ → List Value → Parser → Res (List Value)
  | [], acc, p => .ok acc p
  | x :: xs, acc, p => (elt x acc p).bind fun v p => forLoop elt xs (acc ++ [v]) p

/-- `RepeatLogic::ConditionTerminal` and `ConditionComplete` (src/codegen/mod.rs:3143-3197); `done` is evaluated
on the last value and on all values including it. -/
def untilDoneLoop (done : Value → List Value → Panicky Bool) (elt : Env → Parser → Res Value) (s : Env) :
    Nat → List Value → Parser → Res (List Value)
  | 0, _, _ => .fuel
  | n + 1, acc, p =>
    (elt (accum acc s) p).bind fun v p =>
      (Res.pure p (done v (acc ++ [v]))).bind fun d p =>
        if d then .ok (acc ++ [v]) p else untilDoneLoop done elt s n (acc ++ [v]) p

/-- the two mutable variables of `AccumUntil` (src/codegen/mod.rs:3207-3209) -/
def unfold (acc : Value) (vs : List Value) (s : Env) : Env :=
  .single "acc" acc (.single "seq" (.seq (.strict vs)) s)

/-- `RepeatLogic::AccumUntil` (src/codegen/mod.rs:3198-3258). -/
def accumLoop (done update : Expr) (elt : Env → Parser → Res Value) (s : Env) :
    Nat → Value → List Value → Parser → Res (Value × List Value)
  | 0, _, _, _ => .fuel
  | n + 1, acc, vs, p =>
    (Res.pure p (Decoder.lambdaBool done (unfold acc vs s) (.tuple [acc, .seq (.strict vs)]))).bind fun d p =>
      if d then .ok (acc, vs) p
      else
        (elt (unfold acc vs s) p).bind fun v p =>
          (Res.pure p (update.evalLambda (.single "elem" v (unfold acc vs s)) (.tuple [acc, v]))).bind fun acc' p =>
            accumLoop done update elt s n acc' (vs ++ [v]) p

/-! ### sequences and alternatives -/

/-- the statements of `accum_seq_terms` (src/codegen/model.rs:355-372): element `i` is bound to a variable made of
the prefix and `i` -/
def seqLoop (pre : String) (elt : Decoder → Env → Parser → Res Value) :
    List Decoder → Nat → Env → List Value → Parser → Res (List Value)
  | [], _, _, acc, p => .ok acc p
  | d :: ds, i, s, acc, p =>
    (elt d s p).bind fun v p => seqLoop pre elt ds (i + 1) (.single (pre ++ toString i) v s) (acc ++ [v]) p

/-- `ParallelLogic::Alts` after `start_alt` (src/codegen/mod.rs:3480-3516): the error of an alternative that is not the
last is dropped and `next_alt` called, with the flag for the last alternative to come. -/
def altsLoop (elt : Decoder → Env → Parser → Res Value) : List Decoder → Env → Parser → Res Value
  | [], _, _ => .panic
  | [d], s, p => elt d s p
  | d :: d' :: ds, s, p =>
    match elt d s p with
    | .ok v p' => .ok v p'
    | .err _ p' =>
      (Res.op (p'.nextAlt ds.isEmpty)).bind fun _ p'' => altsLoop elt (d' :: ds) (.single "res" .phantom s) p''
    | .panic => .panic
    | .fuel => .fuel

/-- `OtherLogic::ExprMatch` (src/codegen/mod.rs:3392-3412): no matching pattern is the panic. -/
def matchLoop (elt : List (String × Value) → Decoder → Res Value) (head : Value) :
    List (Pattern × Decoder) → Res Value
  | [] => .panic
  | (pat, d) :: rest =>
    match head.matchesPat pat with
    | some bs => elt bs d
    | none => matchLoop elt head rest

/-! ### views and closures -/

/-- `embed_view_expr` (src/codegen/mod.rs:871-879) with `View::offset` (src/parser/view.rs:32-44).  A view is the rest
of the buffer and its absolute start. -/
def evalView (s : Env) (p : Parser) : ViewExpr → Res ReadCtxt
  | .var name => Res.pure p (Panicky.unwrap (s.getView name))
  | .offset base e =>
    (evalView s p base).bind fun c p =>
      (Res.pure p (Decoder.evalUsize e s)).bind fun off p =>
        if c.input.length < off then .err .overrunStream p
        else .ok ⟨c.input.drop off, c.offset + off⟩ p

/-- the value arguments of a call (src/codegen/mod.rs:2764-2776) -/
def evalArgs (s : Env) : List (String × Expr) → Panicky (List (String × ViewOrValue))
  | [] => .ok []
  | (name, e) :: rest => do
    let v ← e.evalValue s
    let r ← evalArgs s rest
    .ok ((name, .value v) :: r)

/-- the view arguments of a call (src/codegen/mod.rs:2777) -/
def evalViewArgs (s : Env) (p : Parser) : List (String × ViewExpr) → Res (List (String × ViewOrValue))
  | [] => .ok [] p
  | (name, v) :: rest =>
    (evalView s p v).bind fun c p => (evalViewArgs s p rest).bind fun r p => .ok ((name, .view c) :: r) p

/-- `View::read_len` (src/parser/view.rs:28-30): slicing past the end panics. -/
def readLen (c : ReadCtxt) (len : Nat) : Panicky Value :=
  if len ≤ c.input.length then .ok (.seq (.strict ((c.input.take len).map Value.u8))) else .panic

/-- element `i` of a `ReadArray` of big-endian integers of `w` bits -/
def arrayElem (w : Num.BitWidth) (bytes : List UInt8) (i : Nat) : Value :=
  .num (.fixed w) (Fin.ofNat _ (fromBeBytes ((bytes.drop (i * (w.bits / 8))).take (w.bits / 8))))

/-- `View::as_read_array` (src/parser/view.rs:46-65): all elements must be in the view.  Little-endian kinds are
`unimplemented!` in the code generator (src/codegen/model.rs:258-260). -/
def readArray (c : ReadCtxt) (len : Nat) (kind : BaseKind) (p : Parser) : Res Value :=
  if kind.be = false ∧ kind.width ≠ .b8 then .panic
  else if len * (kind.width.bits / 8) ≤ c.input.length then
    .ok (.seq (.strict ((List.range len).map (arrayElem kind.width c.input)))) p
  else .err .overrunStream p

/-- `HuffmanDriver::parse_one` (src/prelude.rs:433-449) on a parser; `children[b]` panics for `b ≥ 2`. -/
def huffmanOne : Huffman.Node → Parser → Res Nat
  | .leaf v, p => .ok v p
  | .empty, p => (Res.op p.readByte).bind fun _ p' => .err .huffman p'
  | .branch c0 c1, p =>
    (Res.op p.readByte).bind fun b p' =>
      if b = 0 then huffmanOne c0 p' else if b = 1 then huffmanOne c1 p' else .panic

/-- the closure made by `join_fallible` (src/prelude.rs:288-299); `unpack` yields a `u16` -/
def callClosure (f : Option Huffman.Node) (p : Parser) : Res Value :=
  match f with
  | none => .err .unsoundOperation p
  | some t => (huffmanOne t p).bind fun v p' => .ok (.num (.fixed .b16) (Fin.ofNat _ v)) p'

/-! ### decoders -/

/-- What the code emitted for a decoder does: `CodeGen::translate` followed by `to_ast` (src/codegen/mod.rs:400-700,
2749-2833, 2843-2867, 2887-2960, 3000-3258, 3287-3340, 3365-3446, 3468-3520, 3557-3735, 3745-3756).
`Decoder{k}` is the function emitted for decoder `k` of the program. -/
def exec (program : List Decoder) : Nat → Decoder → Env → Parser → Res Value
  | 0, _, _, _ => .fuel
  | n + 1, d, s, p =>
    match d with
    | .call k args views =>
      (Res.pure p (evalArgs s args)).bind fun es p =>
        (evalViewArgs s p views).bind fun vs p =>
          (Res.pure p (Panicky.unwrap program[k]?)).bind fun d p => exec program n d (.multi (es ++ vs) .empty) p
    | .phantom => .ok .phantom p
    | .fail => .err .failToken p
    | .pos => (Res.pure p p.getOffsetU64).bind fun o p => .ok (.num (.fixed .b64) (Fin.ofNat _ o)) p
    | .skipRemainder => .ok .unit p.skipRemainder
    | .endOfInput => (Res.op p.finish).bind fun _ p => .ok .unit p
    | .align k => (Res.op (p.skipAlign k)).bind fun _ p => .ok .unit p
    | .byte bs =>
      (Res.op p.readByte).bind fun b p => if bs.contains b then .ok (.u8 b) p else .err .excludedBranch p
    | .variant label d => (exec program n d s p).bind fun v p => .ok (.variant label v) p
    | .branch tree ds =>
      (matchTree tree p).bind fun ix p =>
        match ds[ix]? with
        | some d => exec program n d (.single "tree_index" (.ofUsize ix) s) p
        | none => .err .excludedBranch p
    | .parallel ds => altsLoop (fun d s p => exec program n d s p) ds s p.startAlt
    | .tuple ds =>
      (seqLoop "arg" (fun d s p => exec program n d s p) ds 0 s [] p).bind fun vs p => .ok (.tuple vs) p
    | .sequence ds =>
      (seqLoop "ix" (fun d s p => exec program n d s p) ds 0 s [] p).bind fun vs p => .ok (.seq (.strict vs)) p
    | .while_ tree a =>
      (whileLoop tree (fun s p => exec program n a s p) s n [] p).bind fun vs p => .ok (.seq (.strict vs)) p
    | .until_ tree a =>
      (untilLoop tree (fun s p => exec program n a s p) s (n + 1) [] p).bind fun vs p => .ok (.seq (.strict vs)) p
    | .decodeBytes e a =>
      (Res.pure p (do let vs ← Decoder.evalItems e s; Decoder.bytesOf vs)).bind fun bs p =>
        match exec program n a (.single "buf_input" .phantom (.single "buf_parser" .phantom s)) (.new bs) with
        | .ok v _ => .ok v p
        | .err e _ => .err e p
        | .panic => .panic
        | .fuel => .fuel
    | .parseFromView v a =>
      (evalView s p v).bind fun c p =>
        match exec program n a (.single "view_input" .phantom (.single "view_parser" .phantom s))
            (.ofView c.input c.offset) with
        | .ok v _ => .ok v p
        | .err e _ => .err e p
        | .panic => .panic
        | .fuel => .fuel
    | .letFormat a name b => (exec program n a s p).bind fun v p => exec program n b (.single name v s) p
    | .monadSeq a b => (exec program n a s p).bind fun _ p => exec program n b s p
    | .forEach e label a =>
      (Res.pure p (Decoder.evalItems e (accum [] s))).bind fun vs p =>
        (forLoop (fun v acc p => exec program n a (.single label v (accum acc s)) p) vs [] p).bind fun vs p =>
          .ok (.seq (.strict vs)) p
    | .repeatCount e a =>
      (Res.pure p (Decoder.evalUsize e (accum [] s))).bind fun count p =>
        (forLoop (fun (_ : Unit) acc p => exec program n a (accum acc s) p) (List.replicate count ()) [] p).bind
          fun vs p => .ok (.seq (.strict vs)) p
    | .repeatBetween tree x y a =>
      (betweenLoop tree (Decoder.evalUsize x) (Decoder.evalUsize y) (fun s p => exec program n a s p) s n [] p).bind
        fun vs p => .ok (.seq (.strict vs)) p
    | .maybe e a =>
      (Res.pure p (Decoder.evalBool e s)).bind fun present p =>
        if present then
          (exec program n a (.single "tmp_cond" (.bool present) s) p).bind fun v p => .ok (.optSome v) p
        else .ok .optNone p
    | .repeatUntilLast e a =>
      (untilDoneLoop (fun v acc => Decoder.lambdaBool e (.single "next_elem" v (accum acc.dropLast s)) v)
        (fun s p => exec program n a s p) s n [] p).bind fun vs p => .ok (.seq (.strict vs)) p
    | .repeatUntilSeq e a =>
      (untilDoneLoop
        (fun v acc => Decoder.lambdaBool e (.single "next_elem" v (accum acc s)) (.seq (.strict acc)))
        (fun s p => exec program n a s p) s n [] p).bind fun vs p => .ok (.seq (.strict vs)) p
    | .accumUntil done update init a =>
      (Res.pure p (init.evalValue (.single "seq" (.seq (.strict [])) s))).bind fun acc p =>
        (accumLoop done update (fun s p => exec program n a s p) s n acc [] p).bind fun r p =>
          .ok (.tuple [r.1, .seq (.strict r.2)]) p
    | .peek a =>
      (exec program n a s p.openPeek).bind fun v p => (Res.op p.closePeek).bind fun _ p => .ok v p
    | .peekNot a =>
      match exec program n a s p.openPeekNot with
      | .ok _ p' => .err .negatedSuccess p'
      | .err _ p' => (Res.op p'.recover).bind fun _ p => .ok .unit p
      | .panic => .panic
      | .fuel => .fuel
    | .slice e a =>
      (Res.pure p (Decoder.evalUsize e s)).bind fun size p =>
        (Res.op (p.startSlice size)).bind fun _ p =>
          (exec program n a (.single "sz" (.ofUsize size) s) p).bind fun v p =>
            (Res.op p.endSlice).bind fun _ p => .ok v p
    | .bits a =>
      (Res.op p.enterBitsMode).bind fun _ p =>
        (exec program n a s p).bind fun v p => (Res.op p.escapeBitsMode).bind fun _ p => .ok v p
    | .withRelativeOffset base off a =>
      (Res.pure p (base.evalValue s)).bind fun b p =>
        (Res.pure p (off.evalValue s)).bind fun o p =>
          (Res.pure p (Value.arith .add b o)).bind fun t p =>
            (Res.pure p t.unwrapUsize).bind fun dest p =>
              (Res.op (p.advanceOrSeek dest)).bind fun adv p =>
                (exec program n a (.single "_is_advance" (.bool adv) (.single "tgt_offset" t s)) p).bind fun v p =>
                  (Res.op p.closePeek).bind fun _ p => .ok v p
    | .map d e =>
      (exec program n d s p).bind fun v p => (Res.pure p (e.evalLambda s v)).bind fun r p => .ok r p
    | .where_ d e strict =>
      (exec program n d s p).bind fun v p =>
        (Res.pure p (Decoder.lambdaBool e (.single "inner" v s) v)).bind fun valid p =>
          if valid then .ok v p else if strict then .err .falsifiedWhere p else .ok v p
    | .compute e => (Res.pure p (e.evalValue s)).bind fun v p => .ok v p
    | .let_ name e d => (Res.pure p (e.evalValue s)).bind fun v p => exec program n d (.single name v s) p
    | .letView name d =>
      (Res.pure p p.view).bind fun w p => exec program n d (.view name ⟨w.1, w.2⟩ s) p
    | .match_ head branches =>
      (Res.pure p (head.evalValue s)).bind fun v p =>
        matchLoop (fun bs d => exec program n d (s.withBindings bs) p) v branches
    | .dynamic name lengths values d =>
      (Res.pure p (Decoder.evalHuffman s lengths values)).bind fun lv p =>
        (Res.pure p (Huffman.parseHuffman lv.1 lv.2)).bind fun t p => exec program n d (.decoder name t s) p
    | .apply name =>
      (Res.pure p (Panicky.unwrap (s.getDecoder name))).bind fun f p => callClosure f p
    | .liftedNone => .ok .optNone p
    | .liftedSome d => (exec program n d s p).bind fun v p => .ok (.optSome v) p
    | .captureBytes v len =>
      (evalView s p v).bind fun c p =>
        (Res.pure p (Decoder.evalUsize len s)).bind fun k p =>
          (Res.pure p (readLen c k)).bind fun r p => .ok r p
    | .readArray v len kind =>
      (evalView s p v).bind fun c p =>
        (Res.pure p (Decoder.evalUsize len s)).bind fun k p => readArray c k kind p
    | .reifyView v => (evalView s p v).bind fun c p => .ok (.view c.offset) p
    | .enforce a => exec program n a s p
    | .permit a e =>
      match exec program n a s p with
      | .ok v p' => .ok v p'
      | .err _ p' =>
        (Res.pure p' (e.evalValue (.single "err" .phantom (.single "res" .phantom s)))).bind fun v p => .ok v p
      | .panic => .panic
      | .fuel => .fuel

/-- The function emitted for the top-level decoder, called on a fresh parser (src/codegen/mod.rs:3760-3900). -/
def run (program : List Decoder) (fuel : Nat) (p : Parser) : Res Value :=
  (Res.pure p (Panicky.unwrap program[0]?)).bind fun d p => exec program fuel d .empty p

end Gen
end Doodle
