import Verif.Model.Unify
import Verif.Model.Expr

/-!
Model of the inference of the type checker for patterns, numeric trees and expressions
(/repo/src/typecheck.rs), on top of the unification core in `Model/Unify.lean`.

`o` gives the orders in which hash tables are visited and `n` bounds the recursion of unification.
-/

namespace Doodle
namespace Tc

open Num (MachineRep BitWidth NumRep)

/-- `UScope` (src/typecheck.rs:40-117): the meta-variables of the names in scope, the newest first. -/
abbrev UScope := List (String × Nat)

/-- `get_uvar_by_name` (src/typecheck.rs:59-65, 76-83, 108-116). -/
def UScope.get (scope : UScope) (name : String) : Option Nat := TMap.get name scope

/-! ### annotations -/

mutual
/-- `UType::from_valuetype` (src/typecheck.rs:383-415). -/
def UType.ofValueType : ValueType → Option UType
  | .any => some .hole
  | .numericHole => some .hole
  | .empty => some .empty
  | .viewObj => some .viewObj
  | .phantom t => (UType.ofValueType t).map .phantom
  | .base b => some (.base b)
  | .signed w => some (.int ⟨true, w⟩)
  | .tuple ts => (UType.ofValueTypes ts).map .tuple
  | .record fs => (UType.ofValueFields fs).map .record
  | .union _ => none
  | .option t => (UType.ofValueType t).map .option
  | .seq t => (UType.ofValueType t).map .seqOf
/-- the loop over the components of a tuple (src/typecheck.rs:395-401) -/
def UType.ofValueTypes : List ValueType → Option (List UType)
  | [] => some []
  | t :: ts =>
    match UType.ofValueType t with
    | some u => (UType.ofValueTypes ts).map (u :: ·)
    | none => none
/-- the loop over the fields of a record (src/typecheck.rs:402-408) -/
def UType.ofValueFields : List (String × ValueType) → Option (List (String × UType))
  | [] => some []
  | (l, t) :: fs =>
    match UType.ofValueType t with
    | some u => (UType.ofValueFields fs).map ((l, u) :: ·)
    | none => none
end

mutual
/-- `unify_var_valuetype` (src/typecheck.rs:1865-1904). -/
def unifyVarValueType (o : Orders) (n : Nat) : ValueType → Nat → TcM Unit
  | .union bs, v => unifyVarBranches o n bs v
  | .record fs, v =>
    match UType.ofValueFields fs with
    | some us => unifyVarUtype o n v (.record us)
    | none => unifyVarFieldTypes o n fs v
  | .tuple ts, v =>
    match UType.ofValueTypes ts with
    | some us => unifyVarUtype o n v (.tuple us)
    | none => unifyVarElemTypes o n ts 0 v
  | .seq t, v =>
    match UType.ofValueType t with
    | some u => unifyVarUtype o n v (.seqOf u)
    | none => do
      let w ← newVar
      unifyVarProjElem o n v w
      unifyVarValueType o n t w
  | .option t, v =>
    match UType.ofValueType t with
    | some u => unifyVarUtype o n v (.option u)
    | none => do
      let w ← newVar
      unifyVarProjParam o n v w
      unifyVarValueType o n t w
  | .phantom t, v =>
    match UType.ofValueType t with
    | some u => unifyVarUtype o n v (.phantom u)
    | none => TcM.panic
  | .any, v => unifyVarUtype o n v .hole
  | .numericHole, v => unifyVarUtype o n v .hole
  | .empty, v => unifyVarUtype o n v .empty
  | .viewObj, v => unifyVarUtype o n v .viewObj
  | .base b, v => unifyVarUtype o n v (.base b)
  | .signed w, v => unifyVarUtype o n v (.int ⟨true, w⟩)
/-- `unify_var_valuetype_union` (src/typecheck.rs:959-975). -/
def unifyVarBranches (o : Orders) (n : Nat) : List (String × ValueType) → Nat → TcM Unit
  | [], _ => pure ()
  | (l, t) :: bs, v =>
    match UType.ofValueType t with
    | some u => do
      addUvarVariant o n v l u
      unifyVarBranches o n bs v
    | none => do
      let w ← newVar
      unifyVarValueType o n t w
      addUvarVariant o n v l (.var w)
      unifyVarBranches o n bs v
/-- the loop over the fields of a record (src/typecheck.rs:1875-1881) -/
def unifyVarFieldTypes (o : Orders) (n : Nat) : List (String × ValueType) → Nat → TcM Unit
  | [], _ => pure ()
  | (l, t) :: fs, v => do
    let w ← newVar
    unifyVarProjField o n n v l w
    unifyVarValueType o n t w
    unifyVarFieldTypes o n fs v
/-- the loop over the components of a tuple (src/typecheck.rs:1882-1888) -/
def unifyVarElemTypes (o : Orders) (n : Nat) : List ValueType → Nat → Nat → TcM Unit
  | [], _, _ => pure ()
  | t :: ts, i, v => do
    let w ← newVar
    unifyVarProjIndex o n v i w
    unifyVarValueType o n t w
    unifyVarElemTypes o n ts (i + 1) v
end

/-! ### patterns -/

/-- `Bounds::min_required_width` (src/typecheck/base_set.rs:902-910). -/
def minRequiredWidth (b : Bounds) : BitWidth :=
  let m := b.max.getD b.min
  if m ≤ 255 then .b8 else if m ≤ 65535 then .b16 else if m ≤ 4294967295 then .b32 else .b64

/-- the candidates for a numeric pattern (src/typecheck.rs:820-826, 833-839) -/
def patternInts (b : Num.Bounds) : Panicky PrimIntSet :=
  fromBoundsLoop b ((List.finRange 8).map primAt) PrimIntSet.any

mutual
/-- `infer_var_scope_pattern` (src/typecheck.rs:776-888): the meta-variable and the extended scope. -/
def inferPattern (o : Orders) (n : Nat) : Pattern → UScope → TcM (Nat × UScope)
  | .binding name, sc => do
    let v ← newVar
    pure (v, (name, v) :: sc)
  | .wildcard, sc => do
    let v ← newVar
    pure (v, sc)
  | .bool _, sc => do
    let v ← initVarSimple o n (.base .bool)
    pure (v, sc)
  | .lit w _, sc => do
    let v ← initVarSimple o n (.base (.num w))
    pure (v, sc)
  | .int b, sc => do
    let v ← newVar
    unifyVarBaseset o n v (.u (UintSet.atLeast (minRequiredWidth b)))
    pure (v, sc)
  | .zConst z, sc => do
    let v ← newVar
    let s ← TcM.ofPanicky (patternInts ⟨z, z⟩)
    unifyVarIntset o n v (.z s)
    pure (v, sc)
  | .zRange b, sc => do
    let v ← newVar
    let s ← TcM.ofPanicky (patternInts b)
    unifyVarIntset o n v (.z s)
    pure (v, sc)
  | .char _, sc => do
    let v ← initVarSimple o n (.base .char)
    pure (v, sc)
  | .tuple ps, sc => do
    let v ← newVar
    let r ← inferPatterns o n ps sc
    unifyVarUtype o n v (.tuple r.1)
    pure (v, r.2)
  | .variant l p, sc => do
    let v ← newVar
    let r ← inferPattern o n p sc
    addUvarVariant o n v l (.var r.1)
    pure (v, r.2)
  | .seq ps, sc => do
    let v ← newVar
    let e ← newVar
    let sc' ← inferElems o n ps e sc
    unifyVarUtype o n v (.seqOf (.var e))
    pure (v, sc')
  | .optNone, sc => do
    let v ← newVar
    let w ← newVar
    unifyVarUtype o n v (.option (.var w))
    pure (v, sc)
  | .optSome p, sc => do
    let v ← newVar
    let r ← inferPattern o n p sc
    unifyVarUtype o n v (.option (.var r.1))
    pure (v, r.2)
/-- the loop over the components of a tuple (src/typecheck.rs:850-853) -/
def inferPatterns (o : Orders) (n : Nat) : List Pattern → UScope → TcM (List UType × UScope)
  | [], sc => pure ([], sc)
  | p :: ps, sc => do
    let r ← inferPattern o n p sc
    let rs ← inferPatterns o n ps r.2
    pure (.var r.1 :: rs.1, rs.2)
/-- the loop over the elements of a sequence (src/typecheck.rs:866-869) -/
def inferElems (o : Orders) (n : Nat) : List Pattern → Nat → UScope → TcM UScope
  | [], _, sc => pure sc
  | p :: ps, e, sc => do
    let r ← inferPattern o n p sc
    unifyVarPair o n e r.1
    inferElems o n ps e r.2
end

/-! ### numeric trees -/

/-- `get_new_uvar_numtree` (src/typecheck.rs:769-774): the `unwrap` panics on an error. -/
def newNumVar (o : Orders) (n : Nat) : TcM Nat := do
  let v ← newVar
  let _ ← unifyVarConstraint o n v (.numTree (.z PrimIntSet.any))
  pure v

/-- `check_var_is_numeric` (src/typecheck.rs:2851-2889). -/
def checkVarIsNumeric (v : Nat) : TcM Unit := do
  let can ← getCanonicalVar v
  match ← getConstraints can with
  | .indefinite => pure ()
  | .variant _ => TcM.fail
  | .invariant (.equiv t) =>
    match t with
    | .empty => pure ()
    | .hole => pure ()
    | .var _ => TcM.panic
    | .int _ => pure ()
    | .base (.num _) => pure ()
    | _ => TcM.fail
  | .invariant (.elem bs) =>
    match bs with
    | .single (.num _) => pure ()
    | .single _ => TcM.fail
    | .u _ => pure ()
  | .invariant (.proj _) => TcM.fail
  | .invariant (.numTree _) => pure ()

/-- `unify_var_rep` (src/typecheck.rs:2839-2846). -/
def unifyVarRep (o : Orders) (n : Nat) (v : Nat) : NumRep → TcM Unit
  | .auto => checkVarIsNumeric v
  | .concrete m => unifyVarUtype o n v (.int m)

/-- `get_var_numrep` (src/typecheck.rs:2894-2990). -/
def getVarNumRep (v : Nat) : TcM NumRep := do
  let can ← getCanonicalVar v
  match ← getConstraints can with
  | .indefinite => pure .auto
  | .variant _ => TcM.fail
  | .invariant (.equiv t) =>
    match t with
    | .empty => pure .auto
    | .hole => pure .auto
    | .var _ => TcM.panic
    | .base (.num w) => pure (.concrete ⟨false, w⟩)
    | .int m => pure (.concrete m)
    | _ => TcM.fail
  | .invariant (.elem bs) =>
    match bs with
    | .single (.num w) => pure (.concrete ⟨false, w⟩)
    | .single _ => TcM.fail
    | .u s =>
      match Ranks.asSingleton s with
      | some i => pure (.concrete ⟨false, uintAt i⟩)
      | none => if Ranks.isEmpty s then TcM.fail else pure .auto
  | .invariant (.proj _) => TcM.fail
  | .invariant (.numTree is) =>
    match is with
    | .single m => pure (.concrete m)
    | .z s =>
      match Ranks.asSingleton s with
      | some i => pure (.concrete (primAt i))
      | none => if Ranks.isEmpty s then TcM.fail else pure .auto

/-- the constraints of a binary operation (src/typecheck.rs:2737-2788) -/
def inferBinOp (o : Orders) (n : Nat) (this : Nat) (cast : Option MachineRep) (l r : Nat × NumRep) : TcM NumRep :=
  match l.2, r.2 with
  | .auto, .auto => do
    unifyVarPair o n this l.1
    unifyVarPair o n this r.1
    match cast with
    | some m => do
      unifyVarRep o n this (.concrete m)
      pure (.concrete m)
    | none => pure .auto
  | .concrete a, .concrete b =>
    if a = b then
      match cast with
      | some m => do
        unifyVarRep o n this (.concrete m)
        pure (.concrete m)
      | none => do
        unifyVarRep o n this (.concrete a)
        pure (.concrete a)
    else
      match cast with
      | some m => do
        unifyVarRep o n this (.concrete m)
        pure (.concrete m)
      | none => TcM.fail
  | .auto, .concrete b =>
    match cast with
    | some m => do
      unifyVarRep o n this (.concrete m)
      unifyVarPair o n this l.1
      pure (.concrete m)
    | none => do
      unifyVarRep o n this (.concrete b)
      unifyVarRep o n l.1 (.concrete b)
      pure (.concrete b)
  | .concrete a, .auto =>
    match cast with
    | some m => do
      unifyVarRep o n this (.concrete m)
      unifyVarPair o n this r.1
      pure (.concrete m)
    | none => do
      unifyVarRep o n this (.concrete a)
      unifyVarRep o n r.1 (.concrete a)
      pure (.concrete a)

/-- the constraints of a unary operation (src/typecheck.rs:2790-2817) -/
def inferUnaryOp (o : Orders) (n : Nat) (this : Nat) (cast : Option MachineRep) (r : Nat × NumRep) : TcM NumRep :=
  match r.2 with
  | .auto => do
    unifyVarPair o n this r.1
    match cast with
    | some m => do
      unifyVarRep o n this (.concrete m)
      pure (.concrete m)
    | none => pure .auto
  | .concrete a =>
    match cast with
    | some m => do
      unifyVarRep o n this (.concrete m)
      pure (.concrete m)
    | none => do
      unifyVarRep o n this (.concrete a)
      pure (.concrete a)

/-- `infer_var_num_tree` (src/typecheck.rs:2666-2834). -/
def inferNum (o : Orders) (n : Nat) (sc : UScope) : Num.Expr → TcM (Nat × NumRep)
  | .numVar name => do
    let v ← newNumVar o n
    match sc.get name with
    | some w => do
      unifyVarPair o n v w
      let rep ← getVarNumRep v
      pure (v, rep)
    | none => TcM.fail
  | .const c =>
    match c.rep with
    | .auto => do
      let v ← newNumVar o n
      let is ← TcM.ofPanicky (IntSet.fromBounds ⟨c.val, c.val⟩)
      let _ ← unifyVarConstraint o n v (.numTree is)
      pure (v, .auto)
    | .concrete m => do
      let v ← initVarSimple o n (.int m)
      pure (v, .concrete m)
  | .binOp _ cast l r => do
    let v ← newNumVar o n
    let x ← inferNum o n sc l
    let y ← inferNum o n sc r
    let rep ← inferBinOp o n v cast x y
    pure (v, rep)
  | .unaryOp _ cast e => do
    let v ← newNumVar o n
    let x ← inferNum o n sc e
    let rep ← inferUnaryOp o n v cast x
    pure (v, rep)
  | .cast m _ e => do
    let v ← newNumVar o n
    let x ← inferNum o n sc e
    match x.2 with
    | .auto => do
      unifyVarRep o n x.1 (.concrete m)
      unifyVarRep o n v (.concrete m)
      pure (v, .concrete m)
    | .concrete _ => do
      unifyVarRep o n v (.concrete m)
      pure (v, .concrete m)

/-! ### expressions -/

/-- `BaseSet::UAny` (src/typecheck/base_set.rs:42) -/
def BaseSet.uAny : BaseSet := .u UintSet.any
/-- `BaseSet::UAny32` (src/typecheck/base_set.rs:46) -/
def BaseSet.uAny32 : BaseSet := .u (UintSet.anyDefault .b32)

/-- `unify_utype_baseset` (src/typecheck.rs:1775-1791), the result dropped -/
def unifyUtypeBaseset (o : Orders) (n : Nat) (t : UType) (bs : BaseSet) : TcM Unit := do
  let _ ← unifyUtypeBasesetWith (unifyVarConstraint o n) t bs
  pure ()

/-- `UType::tuple([BaseType::U8; k])` (src/typecheck.rs:2447-2465) -/
def UType.bytes (k : Nat) : UType := .tuple (List.replicate k (.base (.num .b8)))

mutual
/-- `infer_var_expr` (src/typecheck.rs:2233-2659), together with `infer_utype_expr` (src/typecheck.rs:2661-2664)
and `infer_var_expr_acc` (src/typecheck.rs:2222-2231). -/
def inferExpr (o : Orders) (n : Nat) : Expr → UScope → TcM Nat
  | .var name, sc => do
    let v ← newVar
    match sc.get name with
    | some w => do
      unifyVarPair o n w v
      pure v
    | none => TcM.panic
  | .bool _, _ => initVarSimple o n (.base .bool)
  | .lit w _, _ => initVarSimple o n (.base (.num w))
  | .numeric e, sc => do
    let v ← newVar
    let r ← inferNum o n sc e
    unifyVarPair o n v r.1
    pure v
  | .tuple es, sc => do
    let v ← newVar
    let ts ← inferExprs o n es sc
    unifyVarUtype o n v (.tuple ts)
    pure v
  | .tupleProj e i, sc => do
    let v ← newVar
    let w ← inferExpr o n e sc
    unifyVarProjIndex o n w i v
    pure v
  | .record fs, sc => do
    let v ← newVar
    let us ← inferFields o n fs sc
    unifyVarUtype o n v (.record us)
    pure v
  | .recordProj e l, sc => do
    let v ← newVar
    let w ← inferExpr o n e sc
    unifyVarProjField o n n w l v
    pure v
  | .seq es, sc => do
    let v ← newVar
    let e ← newVar
    inferSeqElems o n es e sc
    unifyVarUtype o n v (.seq (.var e) (if es.isEmpty then .bufferView else .constructed))
    pure v
  | .match_ head bs, sc => do
    let v ← newVar
    let h ← inferExpr o n head sc
    inferBranches o n bs h v sc
    pure v
  | .destructure head p e, sc => do
    let v ← newVar
    let h ← inferExpr o n head sc
    let r ← inferPattern o n p sc
    let w ← inferExpr o n e r.2
    unifyVarUtype o n r.1 (.var h)
    unifyVarPair o n v w
    pure v
  | .lambda _ _, _ => TcM.panic
  | .variant l e, sc => do
    let v ← newVar
    let w ← inferExpr o n e sc
    addUvarVariant o n v l (.var w)
    pure v
  | .arith op x y, sc => do
    let z ← newVar
    let a ← inferExpr o n x sc
    match op with
    | .boolAnd | .boolOr => do
      unifyVarBaseset o n a (.single .bool)
      let b ← inferExpr o n y sc
      unifyVarBaseset o n b (.single .bool)
      unifyVarBaseset o n z (.single .bool)
      pure z
    | _ => do
      unifyVarBaseset o n a .uAny
      let b ← inferExpr o n y sc
      unifyVarBaseset o n b .uAny
      unifyVarPair o n z a
      unifyVarPair o n z b
      pure z
  | .unary op x, sc => do
    let z ← newVar
    let a ← inferExpr o n x sc
    match op with
    | .boolNot => do
      unifyVarBaseset o n a (.single .bool)
      unifyVarBaseset o n z (.single .bool)
      pure z
    | .intSucc | .intPred => do
      unifyVarBaseset o n a .uAny
      unifyVarPair o n z a
      pure z
  | .intRel _ x y, sc => do
    let z ← newVar
    let a ← inferExpr o n x sc
    unifyVarBaseset o n a .uAny
    let b ← inferExpr o n y sc
    unifyVarBaseset o n b .uAny
    unifyVarPair o n a b
    let _ ← unifyVarConstraint o n z (.elem (.single .bool))
    pure z
  | .asNum w x, sc => do
    let v ← initVarSimple o n (.base (.num w))
    let a ← inferExpr o n x sc
    unifyVarIntset o n a (.z PrimIntSet.any)
    pure v
  | .asChar x, sc => do
    let v ← initVarSimple o n (.base .char)
    let a ← inferExpr o n x sc
    unifyVarBaseset o n a .uAny
    pure v
  | .fromBytes w _ x, sc => do
    let v ← initVarSimple o n (.base (.num w))
    let a ← inferExpr o n x sc
    let _ ← unifyUtype o n (.var a) (.bytes (w.bits / 8))
    pure v
  | .seqLength s, sc => do
    let v ← newVar
    unifyVarBaseset o n v .uAny32
    let a ← inferExpr o n s sc
    let e ← newVar
    unifyVarProjElem o n a e
    pure v
  | .seqIx s i, sc => do
    let v ← newVar
    let a ← inferExpr o n s sc
    let b ← inferExpr o n i sc
    unifyUtypeBaseset o n (.var b) .uAny32
    unifyVarProjElem o n a v
    pure v
  | .subSeq s i k, sc => do
    let v ← newVar
    let a ← inferExpr o n s sc
    let b ← inferExpr o n i sc
    let c ← inferExpr o n k sc
    unifyUtypeBaseset o n (.var b) .uAny32
    unifyUtypeBaseset o n (.var c) .uAny32
    let e ← newVar
    unifyVarProjElem o n a e
    unifyVarPair o n v a
    pure v
  | .subSeqInflate s i k, sc => do
    let v ← newVar
    let a ← inferExpr o n s sc
    let b ← inferExpr o n i sc
    let c ← inferExpr o n k sc
    unifyUtypeBaseset o n (.var b) .uAny32
    unifyUtypeBaseset o n (.var c) .uAny32
    let e ← newVar
    unifyVarProjElem o n a e
    unifyVarPair o n v a
    pure v
  | .append x y, sc => do
    let v ← newVar
    let a ← inferExpr o n x sc
    let b ← inferExpr o n y sc
    let e ← newVar
    unifyVarPair o n a b
    unifyVarProjElem o n a e
    unifyVarProjElem o n v e
    pure v
  | .flatMap f s, sc => do
    let v ← newVar
    let io ← inferLambda o n f sc
    let a ← inferExpr o n s sc
    let e ← newVar
    unifyVarProjElem o n a io.1
    unifyVarProjElem o n io.2 e
    unifyVarPair o n v io.2
    pure v
  | .flatMapAccum f acc ty s, sc => do
    let ys ← newVar
    let io ← inferLambda o n f sc
    let a ← inferExpr o n acc sc
    unifyVarValueType o n ty a
    let xs ← inferExpr o n s sc
    let x ← newVar
    let y ← newVar
    unifyVarProjElem o n ys y
    unifyVarProjElem o n xs x
    unifyVarUtype o n io.1 (.tuple [.var a, .var x])
    unifyVarUtype o n io.2 (.tuple [.var a, .var ys])
    pure ys
  | .leftFold f acc ty s, sc => do
    let v ← newVar
    let io ← inferLambda o n f sc
    let a ← inferExpr o n acc sc
    unifyVarValueType o n ty a
    let xs ← inferExpr o n s sc
    let x ← newVar
    unifyVarProjElem o n xs x
    unifyVarUtype o n io.1 (.tuple [.var a, .var x])
    unifyVarPair o n a io.2
    unifyVarPair o n v a
    pure v
  | .findByKey _ f q s, sc => do
    let v ← newVar
    let io ← inferLambda o n f sc
    let k ← inferExpr o n q sc
    let xs ← inferExpr o n s sc
    let x ← newVar
    unifyVarProjElem o n xs x
    unifyVarPair o n io.2 k
    unifyVarPair o n io.1 x
    unifyVarUtype o n v (.option (.var x))
    pure v
  | .flatMapList f ty s, sc => do
    let ys ← newVar
    let io ← inferLambda o n f sc
    let xs ← inferExpr o n s sc
    let x ← newVar
    let y ← newVar
    unifyVarProjElem o n ys y
    unifyVarProjElem o n xs x
    unifyVarValueType o n ty y
    unifyVarPair o n ys io.2
    unifyVarUtype o n io.1 (.tuple [.var ys, .var x])
    pure ys
  | .enumFromTo x y, sc => do
    let v ← newVar
    let a ← inferExpr o n x sc
    let b ← inferExpr o n y sc
    unifyVarBaseset o n a .uAny32
    unifyVarPair o n a b
    unifyVarProjElem o n v a
    pure v
  | .dup k x, sc => do
    let v ← newVar
    let c ← inferExpr o n k sc
    let a ← inferExpr o n x sc
    unifyVarBaseset o n c .uAny32
    unifyVarProjElem o n v a
    pure v
  | .liftNone, _ => do
    let v ← newVar
    let w ← newVar
    unifyVarUtype o n v (.option (.var w))
    pure v
  | .liftSome x, sc => do
    let v ← newVar
    let w ← inferExpr o n x sc
    unifyVarUtype o n v (.option (.var w))
    pure v
/-- the loop over the components of a tuple (src/typecheck.rs:2262-2264) -/
def inferExprs (o : Orders) (n : Nat) : List Expr → UScope → TcM (List UType)
  | [], _ => pure []
  | e :: es, sc => do
    let v ← inferExpr o n e sc
    let ts ← inferExprs o n es sc
    pure (.var v :: ts)
/-- the loop over the fields of a record (src/typecheck.rs:2278-2283): the fields so far are in scope -/
def inferFields (o : Orders) (n : Nat) : List (String × Expr) → UScope → TcM (List (String × UType))
  | [], _ => pure []
  | (l, e) :: fs, sc => do
    let v ← inferExpr o n e sc
    let us ← inferFields o n fs ((l, v) :: sc)
    pure ((l, .var v) :: us)
/-- the loop over the elements of a sequence (src/typecheck.rs:2296-2299) -/
def inferSeqElems (o : Orders) (n : Nat) : List Expr → Nat → UScope → TcM Unit
  | [], _, _ => pure ()
  | e :: es, v, sc => do
    let w ← inferExpr o n e sc
    unifyVarUtype o n v (.var w)
    inferSeqElems o n es v sc
/-- the loop over the branches of a match, with `unify_utype_expr_match_case`
(src/typecheck.rs:914-932, 2318-2320) -/
def inferBranches (o : Orders) (n : Nat) : List (Pattern × Expr) → Nat → Nat → UScope → TcM Unit
  | [], _, _, _ => pure ()
  | (p, e) :: bs, h, v, sc => do
    let r ← inferPattern o n p sc
    let w ← inferExpr o n e r.2
    unifyVarUtype o n r.1 (.var h)
    unifyVarPair o n v w
    inferBranches o n bs h v sc
/-- `infer_vars_expr_lambda` (src/typecheck.rs:2993-3009). -/
def inferLambda (o : Orders) (n : Nat) : Expr → UScope → TcM (Nat × Nat)
  | .lambda name body, sc => do
    let x ← newVar
    let y ← inferExpr o n body ((name, x) :: sc)
    pure (x, y)
  | _, _ => TcM.panic
end

end Tc
end Doodle
