import Verif.Spec.Free
import Verif.Model.Gen
import Verif.Model.Compile

/-!
Specification vocabulary for C50: when a generated decoder agrees with the interpreter.

`erase` removes the marks the interpreter puts around values, and `Fragment` says for which decoders agreement is
claimed.  Everything outside the fragment is excluded for a reason given beside it, and for most reasons there is a
counterexample among the theorems of C50.
-/

namespace Doodle
namespace Gen

/-! ### values without marks -/

mutual
/-- the value without the `Mapped`, `Branch` and `Permit` marks of the interpreter, at every depth: what generated
code computes instead -/
def erase : Value → Value
  | .optSome v => .optSome (erase v)
  | .tuple vs => .tuple (eraseList vs)
  | .record fs => .record (eraseFields fs)
  | .variant l v => .variant l (erase v)
  | .seq s => .seq (eraseSeq s)
  | .mapped _ v => erase v
  | .branch _ v => erase v
  | .permitOk v => erase v
  | .permitErr v => erase v
  | .bool b => .bool b
  | .num k n => .num k n
  | .char c => .char c
  | .numeric c => .numeric c
  | .view o => .view o
  | .phantom => .phantom
  | .enumFromTo a b => .enumFromTo a b
  | .optNone => .optNone
  | .permitErrNone => .permitErrNone

/-- every element -/
def eraseList : List Value → List Value
  | [] => []
  | v :: vs => erase v :: eraseList vs

/-- every field -/
def eraseFields : List (String × Value) → List (String × Value)
  | [] => []
  | (l, v) :: fs => (l, erase v) :: eraseFields fs

/-- every element -/
def eraseSeq : SeqKind Value → SeqKind Value
  | .strict vs => .strict (eraseList vs)
  | .dup n v => .dup n (erase v)
end

mutual
/-- no `Permit` mark inside -/
def Clean : Value → Prop
  | .optSome v => Clean v
  | .tuple vs => CleanList vs
  | .record fs => CleanFields fs
  | .variant _ v => Clean v
  | .seq s => CleanSeq s
  | .mapped _ v => Clean v
  | .branch _ v => Clean v
  | .permitOk _ => False
  | .permitErr _ => False
  | .permitErrNone => False
  | _ => True

/-- every element -/
def CleanList : List Value → Prop
  | [] => True
  | v :: vs => Clean v ∧ CleanList vs

/-- every field -/
def CleanFields : List (String × Value) → Prop
  | [] => True
  | (_, v) :: fs => Clean v ∧ CleanFields fs

/-- every element -/
def CleanSeq : SeqKind Value → Prop
  | .strict vs => CleanList vs
  | .dup _ v => Clean v
end

/-! ### names -/

/-- The names generated code uses for its own variables (src/codegen/model.rs:66-153). -/
def reserved (x : String) : Bool :=
  match x.toList with
  | 'i' :: 'x' :: cs => cs.all Char.isDigit
  | 'a' :: 'r' :: 'g' :: cs => cs.all Char.isDigit
  | _ => x ∈ ["accum", "matching_ix", "reps_left", "next_elem", "seq", "acc", "elem", "tree_index", "tmp_cond", "sz",
      "tgt_offset", "_is_advance", "res", "err", "inner", "buf_parser", "buf_input", "view_parser", "view_input"]

/-! ### expressions -/

/-- binds the whole value or ignores it -/
def PatSimple : Pattern → Prop
  | .binding _ => True
  | .wildcard => True
  | _ => False

/-- a pattern that looks at the outermost constructor only: the marks the interpreter keeps inside a value do not
matter to it -/
def PatFlat : Pattern → Prop
  | .tuple ps => ∀ p ∈ ps, PatSimple p
  | .seq ps => ∀ p ∈ ps, PatSimple p
  | .variant _ p => PatSimple p
  | .optSome p => PatSimple p
  | _ => True

mutual
/-- every pattern inside is flat -/
def ExprFlat : Expr → Prop
  | .var _ => True
  | .bool _ => True
  | .lit _ _ => True
  | .tuple es => ExprsFlat es
  | .tupleProj e _ => ExprFlat e
  | .record fs => FieldsFlat fs
  | .recordProj e _ => ExprFlat e
  | .variant _ e => ExprFlat e
  | .seq es => ExprsFlat es
  | .numeric _ => True
  | .match_ e arms => ExprFlat e ∧ ArmsFlat arms
  | .destructure e p b => ExprFlat e ∧ PatFlat p ∧ ExprFlat b
  | .lambda _ b => ExprFlat b
  | .intRel _ a b => ExprFlat a ∧ ExprFlat b
  | .arith _ a b => ExprFlat a ∧ ExprFlat b
  | .unary _ a => ExprFlat a
  | .asNum _ a => ExprFlat a
  | .asChar a => ExprFlat a
  | .fromBytes _ _ a => ExprFlat a
  | .seqLength a => ExprFlat a
  | .subSeq a b c => ExprFlat a ∧ ExprFlat b ∧ ExprFlat c
  | .seqIx a b => ExprFlat a ∧ ExprFlat b
  | .subSeqInflate a b c => ExprFlat a ∧ ExprFlat b ∧ ExprFlat c
  | .flatMap a b => ExprFlat a ∧ ExprFlat b
  | .flatMapAccum a b _ c => ExprFlat a ∧ ExprFlat b ∧ ExprFlat c
  | .flatMapList a _ b => ExprFlat a ∧ ExprFlat b
  | .findByKey _ a b c => ExprFlat a ∧ ExprFlat b ∧ ExprFlat c
  | .enumFromTo a b => ExprFlat a ∧ ExprFlat b
  | .leftFold a b _ c => ExprFlat a ∧ ExprFlat b ∧ ExprFlat c
  | .dup a b => ExprFlat a ∧ ExprFlat b
  | .liftNone => True
  | .liftSome a => ExprFlat a
  | .append a b => ExprFlat a ∧ ExprFlat b

/-- every element -/
def ExprsFlat : List Expr → Prop
  | [] => True
  | e :: es => ExprFlat e ∧ ExprsFlat es

/-- every field -/
def FieldsFlat : List (String × Expr) → Prop
  | [] => True
  | (_, e) :: fs => ExprFlat e ∧ FieldsFlat fs

/-- every arm -/
def ArmsFlat : List (Pattern × Expr) → Prop
  | [] => True
  | (p, e) :: rest => PatFlat p ∧ ExprFlat e ∧ ArmsFlat rest
end

/-- an expression whose value is the same in generated code: flat patterns, and none of the names generated code
uses for itself -/
def ExprOk (e : Expr) : Prop := ExprFlat e ∧ ∀ x, reserved x = true → ¬ e.free x

/-- the expressions inside a view expression -/
def ViewOk : ViewExpr → Prop
  | .var _ => True
  | .offset base e => ViewOk base ∧ ExprOk e

/-- an expression of type `u64`, so that adding two of them overflows exactly when the interpreter's `usize`
addition does -/
def Wide : Expr → Prop
  | .asNum .b64 _ => True
  | .lit .b64 _ => True
  | _ => False

/-! ### match trees -/

mutual
/-- Only leaves accept.  A node with branches that also accepts is decided wrongly by generated code at the end of
the input, and with several branches also before it. -/
def LeafTree : MatchTree → Prop
  | .node a bs => (bs ≠ [] → a = none) ∧ (2 ≤ bs.length → ∀ x ∈ bs, x.1.isFull = false) ∧ LeafBranches bs

/-- every branch -/
def LeafBranches : List (ByteSet × MatchTree) → Prop
  | [] => True
  | (_, t) :: bs => LeafTree t ∧ LeafBranches bs
end

/-- A tree asked only when there is input left: the root may accept besides having branches, if there is one branch
or the branches cover every byte. -/
def RootTree : MatchTree → Prop
  | .node a bs =>
    LeafBranches bs ∧
    (2 ≤ bs.length → (∀ x ∈ bs, x.1.isFull = false) ∧ (a = none ∨ ∀ b, ∃ x ∈ bs, x.1.contains b = true))

/-! ### decoders -/

mutual
/-- a decoder that succeeds only by reading a byte first, one for which `B` holds -/
def StartsIn (B : UInt8 → Prop) : Decoder → Prop
  | .fail => True
  | .byte bs => ∀ b, bs.contains b = true → B b
  | .variant _ d => StartsIn B d
  | .branch _ ds => StartsAll B ds
  | .parallel ds => StartsAll B ds
  | .tuple ds => StartsHead B ds
  | .sequence ds => StartsHead B ds
  | .letFormat d _ _ => StartsIn B d
  | .monadSeq d _ => StartsIn B d
  | .map d _ => StartsIn B d
  | .where_ d _ _ => StartsIn B d
  | .let_ _ _ d => StartsIn B d
  | .letView _ d => StartsIn B d
  | .liftedSome d => StartsIn B d
  | _ => False

/-- every alternative -/
def StartsAll (B : UInt8 → Prop) : List Decoder → Prop
  | [] => True
  | d :: ds => StartsIn B d ∧ StartsAll B ds

/-- the first of a sequence -/
def StartsHead (B : UInt8 → Prop) : List Decoder → Prop
  | [] => False
  | d :: _ => StartsIn B d
end

/-- the tree of a repetition tells from this byte alone that another element follows -/
def MoreAt (tree : MatchTree) (b : UInt8) : Prop := ∀ w, ∃ j, tree.matchesBytes (b :: w) = some (j + 1)

/-- Whatever the variables are, the expressions give a table of at most 65536 code lengths up to 47 whose code words the
generated code can tell apart; the interpreter also compiles some other tables. -/
def HuffmanOk (lengths : Expr) (values : Option Expr) : Prop :=
  ∀ (s : Scope Unit) (ls : List Nat) (vs : Option (List Nat)), Decoder.evalHuffman s lengths values = .ok (ls, vs) →
    ∃ L t, Huffman.reorder ls vs = .ok L ∧ L ≠ [] ∧ L.length ≤ 65536 ∧ (∀ l ∈ L, l ≤ 47) ∧
      Huffman.parseHuffman ls vs = .ok (some t)

/-- the formats of dynamic decoders are compiled by the interpreter's compiler -/
def Faithful (env : Doodle.Env) : Prop :=
  ∀ f d, env.compileOne f = .ok (some d) → ∃ (_ : DecidableEq Next) (o : BuildOpts), o.ord.Valid ∧ 6 ≤ o.fuel ∧
    Compiler.compileOne o f = .ok (some d)

/-- What is known about the place where a decoder is used. -/
structure Ctx where
  /-- the parser reads bits -/
  bits : Bool
  /-- inside an alternative of `Parallel` or inside `PeekNot` -/
  quiet : Bool
  /-- failure must agree too -/
  strict : Bool
  /-- the parser is not one made from a view -/
  main : Bool
  /-- no slice is open, so that the limit is the end of the buffer -/
  whole : Bool
  /-- the limit is the end of the buffer, or it is a number of bits -/
  exact : Bool
deriving DecidableEq, Repr

/-- The limit is checked by whole bytes while reading bits, so that a read past the end of a slice of bytes does not
fail. -/
def Ctx.Sound (k : Ctx) : Prop := k.bits = true → k.strict = true → k.exact = true

/-- `k'` assumes no more than `k` provides, and provides no less. -/
def Ctx.Covers (k k' : Ctx) : Prop :=
  k'.Sound ∧ k'.bits = k.bits ∧ (k.quiet = true → k'.quiet = true) ∧ (k.strict = true → k'.strict = true) ∧
  (k'.main = true → k.main = true) ∧ (k'.whole = true → k.whole = true) ∧ (k'.exact = true → k.exact = true)

/-- the alternatives of `Parallel` and the body of `PeekNot`: their failure decides -/
def Ctx.inner (k : Ctx) : Ctx := { k with quiet := true, strict := true }

mutual
/-- The decoders for which agreement is claimed, in context `k`; `q` gives the context of each decoder of the
program. -/
def Fragment (q : Nat → Ctx) (k : Ctx) : Decoder → Prop
  | .call n args views => k.Covers (q n) ∧ (∀ a ∈ args, ExprOk a.2) ∧ ∀ v ∈ views, ViewOk v.2
  | .phantom => True
  | .fail => True
  -- a parser made from a view counts from the start of the view; in bits it panics
  | .pos => k.bits = false ∧ k.main = true
  -- leaves the reading of bits
  | .skipRemainder => k.bits = false
  | .endOfInput => True
  -- the check of the limit is not exact while reading bits
  | .align _ => if k.bits = true then k.strict = false else k.main = true
  | .byte _ => True
  | .variant _ d => Fragment q k d
  | .branch tree ds => LeafTree tree ∧ FragmentAll q k ds
  -- the alternative that is tried next is looked up on a stack that inner alternatives leave behind
  | .parallel ds => k.quiet = false ∧ ds ≠ [] ∧ k.inner.Sound ∧ FragmentAll q k.inner ds
  | .tuple ds => FragmentAll q k ds
  | .sequence ds => FragmentAll q k ds
  -- the loop stops at the end of the input without asking the tree
  | .while_ tree d =>
    RootTree tree ∧ (if k.strict = true then ∃ j, tree.accept = some (j + 1) else tree.accept ≠ some 0) ∧ Fragment q k d
  -- asks the tree before the first element, and accepts an empty sequence at the end of the input
  | .until_ tree d => k.strict = false ∧ RootTree tree ∧ StartsIn (MoreAt tree) d ∧ Fragment q k d
  -- asks the tree on the current input, the interpreter asks on the first
  | .repeatBetween _ _ _ _ => False
  -- the length of the byte vector has no bound in the model
  | .decodeBytes _ _ => False
  | .parseFromView v d =>
    ViewOk v ∧ Fragment q { k with bits := false, main := false, whole := true, exact := true } d
  | .letFormat d _ d' => Fragment q k d ∧ Fragment q k d'
  | .monadSeq d d' => Fragment q k d ∧ Fragment q k d'
  | .forEach e _ d => ExprOk e ∧ Fragment q k d
  | .repeatCount e d => ExprOk e ∧ Fragment q k d
  | .maybe e d => ExprOk e ∧ Fragment q k d
  | .repeatUntilLast e d => ExprOk e ∧ Fragment q k d
  | .repeatUntilSeq e d => ExprOk e ∧ Fragment q k d
  | .accumUntil done update init d => ExprOk done ∧ ExprOk update ∧ ExprOk init ∧ Fragment q k d
  | .peek d => Fragment q k d
  | .peekNot d => k.quiet = false ∧ k.inner.Sound ∧ Fragment q k.inner d
  | .slice e d =>
    ExprOk e ∧ (k.bits = true → k.strict = false) ∧ Fragment q { k with whole := false, exact := k.bits } d
  | .bits d => k.bits = false ∧ { k with bits := true : Ctx }.Sound ∧ Fragment q { k with bits := true } d
  -- going back leaves the enclosing slice, and the target counts from the start of a view
  | .withRelativeOffset base off d =>
    k.bits = false ∧ k.main = true ∧ k.whole = true ∧ ExprOk base ∧ ExprOk off ∧ Wide base ∧ Wide off ∧ Fragment q k d
  | .map d e => ExprOk e ∧ Fragment q k d
  | .where_ d e _ => ExprOk e ∧ Fragment q k d
  | .compute e => ExprOk e
  | .let_ _ e d => ExprOk e ∧ Fragment q k d
  -- a view reaches to the end of the buffer, beyond the enclosing slice
  | .letView _ d => k.bits = false ∧ k.whole = true ∧ Fragment q k d
  | .match_ e arms => ExprOk e ∧ FragmentArms q k arms
  | .dynamic _ lengths values d =>
    ExprOk lengths ∧ (∀ e, values = some e → ExprOk e) ∧ HuffmanOk lengths values ∧ Fragment q k d
  -- panics on a byte other than 0 and 1
  | .apply _ => k.bits = true ∨ k.strict = false
  | .liftedNone => True
  | .liftedSome d => Fragment q k d
  -- panics where the interpreter reports an error
  | .captureBytes v e => k.strict = false ∧ ViewOk v ∧ ExprOk e
  | .readArray v e kind => (kind.be = true ∨ kind.width = .b8) ∧ ViewOk v ∧ ExprOk e
  | .reifyView v => ViewOk v
  -- generated code does not enforce
  | .enforce d => k.strict = false ∧ Fragment q k d
  -- generated code does not go back to where it was
  | .permit _ _ => False

/-- every decoder -/
def FragmentAll (q : Nat → Ctx) (k : Ctx) : List Decoder → Prop
  | [] => True
  | d :: ds => Fragment q k d ∧ FragmentAll q k ds

/-- every arm -/
def FragmentArms (q : Nat → Ctx) (k : Ctx) : List (Pattern × Decoder) → Prop
  | [] => True
  | (p, d) :: rest => PatFlat p ∧ Fragment q k d ∧ FragmentArms q k rest
end

/-- the context of the top-level decoder -/
def Ctx.top (strict : Bool) : Ctx := ⟨false, false, strict, true, true, true⟩

/-- Every decoder of the program is in the fragment, in its context, and the first one can be run on a fresh
parser. -/
def ProgramOk (q : Nat → Ctx) (strict : Bool) (program : List Decoder) : Prop :=
  (Ctx.top strict).Covers (q 0) ∧ ∀ n d, program[n]? = some d → Fragment q (q n) d

end Gen
end Doodle
