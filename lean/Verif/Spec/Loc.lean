import Verif.Model.LocDecoder

/-!
What "location-tracking decoding agrees with plain decoding" means, and the decoders about which it is
proved.

The two interpreters differ in how they treat four features of the language when these meet certain other
constructs.  `Uses` says which of the features a program may use; `Common` then forbids exactly the
constructs that treat the feature differently.  Each restriction is shown to be necessary by a counterexample
in `Verif.Props.Loc`.
-/

namespace Doodle

mutual
/-- The value with every repeated element (`SeqKind::Dup`) written out. -/
def Value.flat : Value → Value
  | .optSome v => .optSome v.flat
  | .tuple vs => .tuple (Value.flatList vs)
  | .record fs => .record (Value.flatFields fs)
  | .variant l v => .variant l v.flat
  | .seq s => .seq (.strict (Value.flatSeq s))
  | .mapped a b => .mapped a.flat b.flat
  | .branch n v => .branch n v.flat
  | .permitOk v => .permitOk v.flat
  | .permitErr v => .permitErr v.flat
  | .bool b => .bool b
  | .num k n => .num k n
  | .char c => .char c
  | .numeric c => .numeric c
  | .view o => .view o
  | .phantom => .phantom
  | .enumFromTo a b => .enumFromTo a b
  | .optNone => .optNone
  | .permitErrNone => .permitErrNone

def Value.flatList : List Value → List Value
  | [] => []
  | v :: vs => v.flat :: Value.flatList vs

def Value.flatFields : List (String × Value) → List (String × Value)
  | [] => []
  | (l, v) :: fs => (l, v.flat) :: Value.flatFields fs

def Value.flatSeq : SeqKind Value → List Value
  | .strict vs => Value.flatList vs
  | .dup n v => List.replicate n v.flat
end

namespace Loc

/-- The error without the locations of the value it carries. -/
def eraseErr : LocErr → DecodeErr
  | .fail o => .fail o
  | .noValidBranch o => .noValidBranch o
  | .trailing b o => .trailing b o
  | .overbyte o => .overbyte o
  | .overrun s o => .overrun s o
  | .unexpected b bs o => .unexpected b bs o
  | .badSeek t l => .badSeek t l
  | .badWhere e v => .badWhere e v.erase

/-- The error with the repeated elements of the value it carries written out. -/
def flatErr : DecodeErr → DecodeErr
  | .badWhere e v => .badWhere e v.flat
  | e => e

/-- The two results say the same: both succeed, with the same value (once locations are erased and repeated
elements written out), the same rest of the input and the same non-critical errors; or both fail with the
same error; or both panic; or both need more fuel. -/
def SameResult : Outcome LocErr LocParsed → Outcome DecodeErr Parsed → Prop
  | .ok w, .ok w' =>
    w.value.1.erase = w'.value.1.flat ∧ w.value.2 = w'.value.2 ∧
      w.errs.map eraseErr = w'.errs.map flatErr
  | .err e, .err e' => eraseErr e = flatErr e'
  | .panic, .panic => True
  | .fuel, .fuel => True
  | _, _ => False

/-- Features a program may use. -/
structure Uses where
  /-- wrapped values: `Map`, alternatives, `Match`, `Permit`, `Dynamic` -/
  wrap : Bool
  /-- numeric expressions -/
  num : Bool
  /-- `Permit` -/
  permit : Bool
  /-- integer ranges -/
  range : Bool

/-- Evaluation of the expression builds its result, it does not look it up: it never yields a wrapped
value. -/
def Builds : Expr → Prop
  | .var _ => False
  | .tupleProj _ _ => False
  | .recordProj _ _ => False
  | .seqIx _ _ => False
  | _ => True

mutual
/-- No literal or interval of machine integers occurs in the pattern. -/
def NoMachineInt : Pattern → Prop
  | .lit _ _ => False
  | .int _ => False
  | .tuple ps => NoMachineInts ps
  | .seq ps => NoMachineInts ps
  | .variant _ p => NoMachineInt p
  | .optSome p => NoMachineInt p
  | _ => True

def NoMachineInts : List Pattern → Prop
  | [] => True
  | p :: ps => NoMachineInt p ∧ NoMachineInts ps
end

/-- Matching on the pattern is done alike. -/
def CommonPat (u : Uses) (p : Pattern) : Prop := u.permit = false ∧ (u.num = true → NoMachineInt p)

mutual
/-- The expression uses only the given features, and no construct that treats one of them differently. -/
def CommonExpr (u : Uses) : Expr → Prop
  | .var _ => True
  | .bool _ => True
  | .lit _ _ => True
  | .numeric _ => u.num = true
  | .tuple es => CommonExprs u es
  | .tupleProj e _ => u.permit = false ∧ CommonExpr u e
  | .record fs => fs ≠ [] ∧ CommonFields u fs
  | .recordProj e _ => u.permit = false ∧ CommonExpr u e
  | .variant _ e => CommonExpr u e
  | .seq es => CommonExprs u es
  | .match_ e bs => CommonExpr u e ∧ CommonBranches u bs
  | .destructure e p b => CommonExpr u e ∧ CommonPat u p ∧ CommonExpr u b
  | .lambda _ b => CommonExpr u b
  | .intRel _ x y => CommonExpr u x ∧ CommonExpr u y
  | .arith _ x y => CommonExpr u x ∧ CommonExpr u y
  | .unary _ x => CommonExpr u x
  | .asNum _ x => CommonExpr u x
  | .asChar x => u.range = false ∧ CommonExpr u x
  | .fromBytes _ _ x => CommonExpr u x
  | .seqLength x => CommonExpr u x
  | .subSeq x y z => CommonExpr u x ∧ CommonExpr u y ∧ CommonExpr u z
  | .seqIx x y => CommonExpr u x ∧ CommonExpr u y
  | .subSeqInflate x y z => CommonExpr u x ∧ CommonExpr u y ∧ CommonExpr u z
  | .flatMap f x => u.range = false ∧ CommonExpr u f ∧ CommonExpr u x
  | .flatMapAccum f a _ x => u.range = false ∧ CommonExpr u f ∧ CommonExpr u a ∧ CommonExpr u x
  | .flatMapList f _ x => CommonExpr u f ∧ CommonExpr u x
  | .findByKey _ f q x => CommonExpr u f ∧ CommonExpr u q ∧ CommonExpr u x
  | .enumFromTo x y => u.range = true ∧ CommonExpr u x ∧ CommonExpr u y
  | .leftFold f a _ x => u.range = false ∧ CommonExpr u f ∧ CommonExpr u a ∧ CommonExpr u x
  | .dup x y => CommonExpr u x ∧ CommonExpr u y
  | .liftNone => True
  | .liftSome x => CommonExpr u x
  | .append x y => CommonExpr u x ∧ CommonExpr u y

def CommonExprs (u : Uses) : List Expr → Prop
  | [] => True
  | e :: es => CommonExpr u e ∧ CommonExprs u es

def CommonFields (u : Uses) : List (String × Expr) → Prop
  | [] => True
  | (_, e) :: fs => CommonExpr u e ∧ CommonFields u fs

def CommonBranches (u : Uses) : List (Pattern × Expr) → Prop
  | [] => True
  | (p, e) :: bs => CommonPat u p ∧ CommonExpr u e ∧ CommonBranches u bs
end

/-- An expression whose result plain decoding unwraps while location-tracking decoding does not. -/
def CommonBound (u : Uses) (e : Expr) : Prop := CommonExpr u e ∧ (u.wrap = true → Builds e)

/-- The expressions of a view. -/
def CommonView (u : Uses) : ViewExpr → Prop
  | .var _ => True
  | .offset v e => CommonView u v ∧ CommonExpr u e

mutual
/-- The decoder uses only the given features, and no construct that treats one of them differently. -/
def Common (u : Uses) : Decoder → Prop
  | .call _ args views =>
    (∀ a ∈ args, CommonBound u a.2) ∧ (∀ v ∈ views, CommonView u v.2)
  | .variant _ d => Common u d
  | .parallel ds => u.wrap = true ∧ CommonAll u ds
  | .branch _ ds => u.wrap = true ∧ CommonAll u ds
  | .tuple ds => CommonAll u ds
  | .sequence ds => CommonAll u ds
  | .while_ _ d => Common u d
  | .until_ _ d => Common u d
  | .repeatCount e d => CommonExpr u e ∧ Common u d
  | .repeatUntilLast e d => CommonExpr u e ∧ Common u d
  | .repeatUntilSeq e d => CommonExpr u e ∧ Common u d
  | .maybe e d => CommonExpr u e ∧ Common u d
  | .peek d => Common u d
  | .peekNot d => Common u d
  | .slice e d => CommonExpr u e ∧ Common u d
  | .bits d => Common u d
  | .withRelativeOffset b o d => CommonExpr u b ∧ CommonExpr u o ∧ Common u d
  | .map d e => u.wrap = true ∧ Common u d ∧ CommonExpr u e
  | .where_ d e _ => Common u d ∧ CommonExpr u e
  | .compute e => CommonBound u e
  | .let_ _ e d => CommonBound u e ∧ Common u d
  | .match_ e bs => u.wrap = true ∧ CommonExpr u e ∧ CommonMatch u bs
  | .dynamic _ ls vs d =>
    u.wrap = true ∧ CommonExpr u ls ∧ (∀ e, vs = some e → CommonExpr u e) ∧ Common u d
  | .repeatBetween _ x y d => CommonExpr u x ∧ CommonExpr u y ∧ Common u d
  | .forEach e _ d => CommonBound u e ∧ Common u d
  | .decodeBytes e d => CommonExpr u e ∧ Common u d
  | .parseFromView v d => CommonView u v ∧ Common u d
  | .letFormat d _ e => Common u d ∧ Common u e
  | .monadSeq d e => Common u d ∧ Common u e
  | .accumUntil x y z d => CommonExpr u x ∧ CommonExpr u y ∧ CommonExpr u z ∧ Common u d
  | .liftedSome d => Common u d
  | .letView _ d => Common u d
  | .captureBytes v e => CommonView u v ∧ CommonExpr u e
  | .readArray v e _ => CommonView u v ∧ CommonExpr u e
  | .reifyView v => CommonView u v
  | .enforce d => Common u d
  | .permit d e => u.wrap = true ∧ u.permit = true ∧ Common u d ∧ CommonBound u e
  | .pos => True
  | .fail => True
  | .endOfInput => True
  | .align _ => True
  | .byte _ => True
  | .apply _ => True
  | .skipRemainder => True
  | .liftedNone => True
  | .phantom => True

def CommonAll (u : Uses) : List Decoder → Prop
  | [] => True
  | d :: ds => Common u d ∧ CommonAll u ds

def CommonMatch (u : Uses) : List (Pattern × Decoder) → Prop
  | [] => True
  | (p, d) :: bs => CommonPat u p ∧ Common u d ∧ CommonMatch u bs
end

/-- All decoders of the program, and those that `Dynamic` compiles, are of this kind. -/
def CommonEnv (u : Uses) (env : Env) : Prop :=
  (∀ d ∈ env.program, Common u d) ∧ (∀ f d, env.compileOne f = .ok (some d) → Common u d)

end Loc
end Doodle
