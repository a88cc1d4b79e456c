import Verif.Model.LocDecoder
import Verif.Spec.Pattern

/-!
What "every recorded location lies within the input consumed" means, and the decoders about which it is
proved.

A record is given the offset of its first field and the *sum* of the lengths of its fields.  This is right
only if the fields occupy disjoint parts of the input.  `Tidy` follows the names of the values that do:
those decoded one after the other since the field being decoded began.
-/

namespace Doodle

/-- The location lies between the two offsets. -/
def ParseLoc.Within (lo hi : Nat) : ParseLoc → Prop
  | .synthesized => True
  | .inBuffer offset length => lo ≤ offset ∧ offset + length ≤ hi

mutual
/-- Every location in the value, however deep, lies between the two offsets. -/
def ParsedValue.Within (lo hi : Nat) : ParsedValue → Prop
  | .flat _ loc => loc.Within lo hi
  | .tuple vs loc => loc.Within lo hi ∧ ParsedValue.WithinAll lo hi vs
  | .record fs loc => loc.Within lo hi ∧ ParsedValue.WithinFields lo hi fs
  | .variant _ v => v.Within lo hi
  | .seq vs loc => loc.Within lo hi ∧ ParsedValue.WithinAll lo hi vs
  | .mapped a b => a.Within lo hi ∧ b.Within lo hi
  | .branch _ v => v.Within lo hi
  | .permitOk v => v.Within lo hi
  | .permitErrNone => True
  | .permitErr v => v.Within lo hi
  | .optNone => True
  | .optSome v => v.Within lo hi

def ParsedValue.WithinAll (lo hi : Nat) : List ParsedValue → Prop
  | [] => True
  | v :: vs => v.Within lo hi ∧ ParsedValue.WithinAll lo hi vs

def ParsedValue.WithinFields (lo hi : Nat) : List (String × ParsedValue) → Prop
  | [] => True
  | (_, v) :: fs => v.Within lo hi ∧ ParsedValue.WithinFields lo hi fs
end

namespace Loc

/-- The result of the expression has no location of its own. -/
def Synth : Expr → Bool
  | .var _ => false
  | .tupleProj _ _ => false
  | .recordProj _ _ => false
  | .record _ => false
  | .seqIx _ _ => false
  | .append _ _ => false
  | .findByKey _ _ _ _ => false
  | .lambda _ _ => false
  | _ => true

/-- The variables among the fields of a record; `none` if some other field may have a location. -/
def fieldVars : List (String × Expr) → Option (List String)
  | [] => some []
  | (_, .var x) :: fs => (fieldVars fs).map (x :: ·)
  | (_, e) :: fs => if Synth e then fieldVars fs else none

/-- The fields have no location or are different variables among the given ones. -/
def fieldsOk (own : List String) (fs : List (String × Expr)) : Bool :=
  match fieldVars fs with
  | some xs => decide xs.Nodup && xs.all (own.contains ·)
  | none => false

mutual
/-- Every record whose location may be part of the result has fields as in `fieldsOk`. -/
def TidyExpr (own : List String) : Expr → Bool
  | .tupleProj e _ => TidyExpr own e
  | .recordProj e _ => TidyExpr own e
  | .seqIx e _ => TidyExpr own e
  | .subSeq e _ _ => TidyExpr own e
  | .subSeqInflate e _ _ => TidyExpr own e
  | .append x y => TidyExpr own x && TidyExpr own y
  | .findByKey _ _ _ e => TidyExpr own e
  | .record fs => fieldsOk own fs && TidyFields own fs
  | _ => true

def TidyFields (own : List String) : List (String × Expr) → Bool
  | [] => true
  | (_, e) :: fs => TidyExpr own e && TidyFields own fs
end

/-- The location of the result lies in the field being decoded. -/
def LocalExpr (own : List String) : Expr → Bool
  | .var x => own.contains x
  | .record fs => fieldsOk own fs
  | e => Synth e

/-- names with the given ones removed -/
def without (xs own : List String) : List String := own.filter fun x => !xs.contains x

mutual
/-- The location of what the decoder yields lies in the field being decoded; `calls` says for which decoders
of the program this is so. -/
def Local (calls : Nat → Bool) (own : List String) : Decoder → Bool
  | .call k _ _ => calls k
  | .variant _ d => Local calls own d
  | .parallel ds => LocalAll calls own ds
  | .branch _ ds => LocalAll calls own ds
  | .maybe _ d => Local calls own d
  | .slice _ d => Local calls own d
  | .map d _ => Local calls own d
  | .where_ d _ _ => Local calls own d
  | .compute e => LocalExpr own e
  | .let_ x _ d => Local calls (without [x] own) d
  | .match_ _ bs => LocalMatch calls own bs
  | .dynamic _ _ _ d => Local calls own d
  | .letFormat a x b => Local calls (if Local calls [] a then x :: without [x] own else without [x] own) b
  | .monadSeq _ b => Local calls own b
  | .liftedSome d => Local calls own d
  | .letView _ d => Local calls own d
  | .enforce d => Local calls own d
  | .permit d e => Local calls own d && LocalExpr own e
  | .peek _ => false
  | .withRelativeOffset _ _ _ => false
  | .parseFromView _ _ => false
  | .captureBytes _ _ => false
  | .readArray _ _ _ => false
  | .bits _ => false
  | .decodeBytes _ _ => false
  | .apply _ => false
  | _ => true

def LocalAll (calls : Nat → Bool) (own : List String) : List Decoder → Bool
  | [] => true
  | d :: ds => Local calls own d && LocalAll calls own ds

def LocalMatch (calls : Nat → Bool) (own : List String) : List (Pattern × Decoder) → Bool
  | [] => true
  | (p, d) :: bs => Local calls (without p.binders own) d && LocalMatch calls own bs
end

mutual
/-- Every record is built from values that lie next to each other, everything is decoded from the input
itself (not from bits or computed bytes) and, unless `free`, only where the input is consumed.  `own` are the
names bound to such values since the field being decoded began. -/
def Tidy (free : Bool) (calls : Nat → Bool) (own : List String) : Decoder → Bool
  | .call _ args _ => args.all fun a => TidyExpr own a.2
  | .variant _ d => Tidy free calls own d
  | .parallel ds => TidyAll free calls own ds
  | .branch _ ds => TidyAll free calls own ds
  | .tuple ds => TidyAll free calls [] ds
  | .sequence ds => TidyAll free calls [] ds
  | .while_ _ d => Tidy free calls [] d
  | .until_ _ d => Tidy free calls [] d
  | .repeatCount _ d => Tidy free calls [] d
  | .repeatUntilLast _ d => Tidy free calls [] d
  | .repeatUntilSeq _ d => Tidy free calls [] d
  | .repeatBetween _ _ _ d => Tidy free calls [] d
  | .forEach e _ d => TidyExpr own e && Tidy free calls [] d
  | .accumUntil _ _ _ d => Tidy free calls [] d
  | .maybe _ d => Tidy free calls own d
  | .peek d => free && Tidy free calls [] d
  | .withRelativeOffset _ _ d => free && Tidy free calls [] d
  | .parseFromView _ d => free && Tidy free calls [] d
  | .captureBytes _ _ => free
  | .readArray _ _ _ => free
  | .bits _ => false
  | .decodeBytes _ _ => false
  | .slice _ d => Tidy free calls own d
  | .map d _ => Tidy free calls own d
  | .where_ d _ _ => Tidy free calls own d
  | .compute e => TidyExpr own e
  | .let_ x e d => TidyExpr own e && Tidy free calls (without [x] own) d
  | .match_ e bs => TidyExpr own e && TidyMatch free calls own bs
  | .dynamic _ _ _ d => Tidy free calls own d
  | .letFormat a x b =>
    Tidy free calls [] a &&
      Tidy free calls (if Local calls [] a then x :: without [x] own else without [x] own) b
  | .monadSeq a b => Tidy free calls [] a && Tidy free calls own b
  | .liftedSome d => Tidy free calls own d
  | .letView _ d => Tidy free calls own d
  | .enforce d => Tidy free calls own d
  | .permit d e => Tidy free calls own d && TidyExpr own e
  | .peekNot _ => true
  | .pos => true
  | .fail => true
  | .endOfInput => true
  | .align _ => true
  | .byte _ => true
  | .apply _ => true
  | .skipRemainder => true
  | .liftedNone => true
  | .phantom => true
  | .reifyView _ => true

def TidyAll (free : Bool) (calls : Nat → Bool) (own : List String) : List Decoder → Bool
  | [] => true
  | d :: ds => Tidy free calls own d && TidyAll free calls own ds

def TidyMatch (free : Bool) (calls : Nat → Bool) (own : List String) : List (Pattern × Decoder) → Bool
  | [] => true
  | (p, d) :: bs => Tidy free calls (without p.binders own) d && TidyMatch free calls own bs
end

/-- All decoders of the program, and those that `Dynamic` compiles, are tidy; and `calls` is right. -/
def TidyEnv (free : Bool) (calls : Nat → Bool) (env : Env) : Prop :=
  (∀ d ∈ env.program, Tidy free calls [] d = true) ∧
    (∀ k d, calls k = true → env.program[k]? = some d → Local calls [] d = true) ∧
    (∀ f d, env.compileOne f = .ok (some d) → Tidy free calls [] d = true)

end Loc
end Doodle
