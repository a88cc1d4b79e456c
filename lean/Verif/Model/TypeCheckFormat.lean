import Verif.Model.TypeCheck
import Verif.Model.Format

/-!
Model of the inference of the type checker for formats and of the reading of its result
(/repo/src/typecheck.rs), on top of `Model/TypeCheck.lean`.

`ats` holds the types of the parameters of the items of the module (their names are in the module).
`o` gives the orders in which hash tables are visited and `n` bounds the recursion of unification and of the
occurs check.  The table `level_vars` of the checker is passed along.
-/

namespace Doodle
namespace Tc

open Num (MachineRep BitWidth)

/-- `Ctxt` (src/typecheck.rs:238-300) without the module: the names of values, of formats bound by `Dynamic`
(src/typecheck.rs:194-236) and of views (src/typecheck.rs:123-192). -/
structure Ctxt where
  scope : UScope
  dyns : List (String × Nat)
  views : List String

/-- `Ctxt::new` (src/typecheck.rs:247-254). -/
def Ctxt.empty : Ctxt := ⟨[], [], []⟩

/-- `level_vars` (src/typecheck.rs:708-709): the meta-variables of the items inferred so far -/
abbrev Levels := List (Nat × Nat)

/-- `traverse_view_expr` (src/typecheck.rs:1056-1072). -/
def traverseView (o : Orders) (n : Nat) (cx : Ctxt) : ViewExpr → TcM Unit
  | .var name => if cx.views.contains name then pure () else TcM.fail
  | .offset base e => do
    traverseView o n cx base
    let v ← inferExpr o n e cx.scope
    unifyVarBaseset o n v .uAny

/-- the loop over the arguments of a call (src/typecheck.rs:3407-3411): the scope of the item -/
def inferArgs (o : Orders) (n : Nat) (cx : Ctxt) : List (String × ValueType) → List Expr → UScope → TcM UScope
  | (l, t) :: ts, e :: es, sc => do
    let v ← inferExpr o n e cx.scope
    unifyVarValueType o n t v
    inferArgs o n cx ts es ((l, v) :: sc)
  | _, _, sc => pure sc

/-- the loop over the view arguments of a call (src/typecheck.rs:3412-3416), with `push_view`
(src/typecheck.rs:165-171), which panics on a repeated name; `own` are the names of this call -/
def inferViews (o : Orders) (n : Nat) (cx : Ctxt) : List String → List ViewExpr → List String → TcM (List String)
  | l :: ls, x :: xs, own => do
    traverseView o n cx x
    if own.contains l then TcM.panic else inferViews o n cx ls xs (l :: own)
  | _, _, own => pure own

/-- `infer_var_dyn_format` (src/typecheck.rs:1025-1054). -/
def inferDyn (o : Orders) (n : Nat) (cx : Ctxt) (lengths : Expr) (values : Option Expr) : TcM Nat := do
  let v ← newVar
  let codes ← inferExpr o n lengths cx.scope
  let code ← newVar
  unifyVarProjElem o n codes code
  let _ ← unifyVarConstraint o n code (.elem (.u UintSet.short8))
  match values with
  | some e => do
    let vals ← inferExpr o n e cx.scope
    let val ← newVar
    unifyVarProjElem o n vals val
    let _ ← unifyVarConstraint o n val (.elem (.u UintSet.short8))
    let _ ← unifyVarConstraint o n v (.elem (.u (UintSet.anyDefault .b16)))
    pure v
  | none => do
    let _ ← unifyVarConstraint o n v (.elem (.u (UintSet.anyDefault .b16)))
    pure v

section
variable (o : Orders) (n : Nat) (m : Module) (ats : List (List ValueType))
variable (level : Nat → Ctxt → Levels → TcM (Nat × Levels))

mutual
/-- `infer_var_format` (src/typecheck.rs:3393-3760), together with `infer_utype_format`
(src/typecheck.rs:3762-3769), which wraps the variable, and `infer_var_view_format`
(src/typecheck.rs:987-1023); `level` is `infer_var_format_level`. -/
def inferFormatWith : Format → Ctxt → Levels → TcM (Nat × Levels)
  | .phantom f, cx, lv => do
    let v ← newVar
    let r ← inferFormatWith f cx lv
    unifyVarUtype o n v (.phantom (.var r.1))
    pure (v, r.2)
  | .itemVar l args views, cx, lv => do
    let v ← newVar
    if args.isEmpty && views.isEmpty then do
      let r ← level l cx lv
      unifyVarPair o n v r.1
      pure (v, r.2)
    else do
      let it ← TcM.ofPanicky (m.get l)
      let ts ← TcM.ofPanicky (Panicky.unwrap ats[l]?)
      let sc ← inferArgs o n cx (it.args.zip ts) args cx.scope
      let vs ← inferViews o n cx it.views views []
      let r ← level l ⟨sc, cx.dyns, vs ++ cx.views⟩ lv
      unifyVarPair o n v r.1
      pure (v, r.2)
  | .forEach e l f, cx, lv => do
    let v ← newVar
    let a ← inferExpr o n e cx.scope
    let x ← newVar
    unifyVarProjElem o n a x
    let r ← inferFormatWith f { cx with scope := (l, x) :: cx.scope } lv
    unifyVarUtype o n v (.seqOf (.var r.1))
    pure (v, r.2)
  | .fail, _, lv => do
    let v ← initVarSimple o n .empty
    pure (v, lv)
  | .skipRemainder, _, lv => do
    let v ← initVarSimple o n (.tuple [])
    pure (v, lv)
  | .endOfInput, _, lv => do
    let v ← initVarSimple o n (.tuple [])
    pure (v, lv)
  | .align _, _, lv => do
    let v ← initVarSimple o n (.tuple [])
    pure (v, lv)
  | .decodeBytes e f, cx, lv => do
    let v ← newVar
    let a ← inferExpr o n e cx.scope
    let r ← inferFormatWith f cx lv
    unifyVarUtype o n a (.seqOf (.base (.num .b8)))
    unifyVarPair o n v r.1
    pure (v, r.2)
  | .parseFromView x f, cx, lv => do
    let v ← newVar
    traverseView o n cx x
    let r ← inferFormatWith f cx lv
    unifyVarPair o n v r.1
    pure (v, r.2)
  | .byte bs, _, lv =>
    if bs.isEmpty then do
      let v ← initVarSimple o n .empty
      pure (v, lv)
    else do
      let v ← initVarSimple o n (.base (.num .b8))
      pure (v, lv)
  | .variant l f, cx, lv => do
    let v ← newVar
    let r ← inferFormatWith f cx lv
    addUvarVariant o n v l (.var r.1)
    pure (v, r.2)
  | .union fs, cx, lv => do
    let v ← newVar
    let lv' ← inferUnion fs v cx lv
    pure (v, lv')
  | .unionNondet fs, cx, lv => do
    let v ← newVar
    let lv' ← inferUnion fs v cx lv
    pure (v, lv')
  | .tuple fs, cx, lv => do
    let v ← newVar
    let r ← inferComponents fs cx lv
    unifyVarUtype o n v (.tuple r.1)
    pure (v, r.2)
  | .sequence fs, cx, lv => do
    let v ← newVar
    let e ← newVar
    let lv' ← inferSequence fs e cx lv
    unifyVarUtype o n v (.seqOf (.var e))
    pure (v, lv')
  | .repeat_ f, cx, lv => do
    let v ← newVar
    let r ← inferFormatWith f cx lv
    unifyVarUtype o n v (.seqOf (.var r.1))
    pure (v, r.2)
  | .repeat1 f, cx, lv => do
    let v ← newVar
    let r ← inferFormatWith f cx lv
    unifyVarUtype o n v (.seqOf (.var r.1))
    pure (v, r.2)
  | .repeatCount e f, cx, lv => do
    let v ← newVar
    let a ← inferExpr o n e cx.scope
    unifyUtypeBaseset o n (.var a) .uAny
    let r ← inferFormatWith f cx lv
    unifyVarUtype o n v (.seqOf (.var r.1))
    pure (v, r.2)
  | .repeatBetween x y f, cx, lv => do
    let v ← newVar
    let a ← inferExpr o n x cx.scope
    let b ← inferExpr o n y cx.scope
    unifyUtypeBaseset o n (.var a) .uAny
    unifyVarPair o n a b
    let r ← inferFormatWith f cx lv
    unifyVarUtype o n v (.seqOf (.var r.1))
    pure (v, r.2)
  | .repeatUntilLast e f, cx, lv => do
    let v ← newVar
    let io ← inferLambda o n e cx.scope
    let r ← inferFormatWith f cx lv
    unifyVarUtype o n io.1 (.var r.1)
    unifyVarUtype o n io.2 (.base .bool)
    unifyVarUtype o n v (.seqOf (.var r.1))
    pure (v, r.2)
  | .repeatUntilSeq e f, cx, lv => do
    let v ← newVar
    let io ← inferLambda o n e cx.scope
    let r ← inferFormatWith f cx lv
    unifyVarUtype o n io.1 (.seqOf (.var r.1))
    unifyVarUtype o n io.2 (.base .bool)
    unifyVarUtype o n v (.seqOf (.var r.1))
    pure (v, r.2)
  | .accumUntil done update init ty f, cx, lv => do
    let v ← newVar
    let d ← inferLambda o n done cx.scope
    let u ← inferLambda o n update cx.scope
    let a ← inferExpr o n init cx.scope
    let r ← inferFormatWith f cx lv
    unifyVarValueType o n ty a
    unifyVarUtype o n d.1 (.tuple [.var a, .seqOf (.var r.1)])
    unifyVarUtype o n d.2 (.base .bool)
    unifyVarUtype o n u.1 (.tuple [.var a, .var r.1])
    unifyVarPair o n u.2 a
    unifyVarPair o n v d.1
    pure (v, r.2)
  | .maybe e f, cx, lv => do
    let v ← newVar
    let a ← inferExpr o n e cx.scope
    let r ← inferFormatWith f cx lv
    unifyVarUtype o n a (.base .bool)
    unifyVarUtype o n v (.option (.var r.1))
    pure (v, r.2)
  | .peek f, cx, lv => do
    let v ← newVar
    let r ← inferFormatWith f cx lv
    unifyVarUtype o n v (.var r.1)
    pure (v, r.2)
  | .peekNot f, cx, lv => do
    let v ← initVarSimple o n (.tuple [])
    let r ← inferFormatWith f cx lv
    pure (v, r.2)
  | .slice e f, cx, lv => do
    let v ← newVar
    let a ← inferExpr o n e cx.scope
    unifyUtypeBaseset o n (.var a) .uAny32
    let r ← inferFormatWith f cx lv
    unifyVarUtype o n v (.var r.1)
    pure (v, r.2)
  | .bits f, cx, lv => do
    let v ← newVar
    let r ← inferFormatWith f cx lv
    unifyVarUtype o n v (.var r.1)
    pure (v, r.2)
  | .withRelativeOffset x y f, cx, lv => do
    let v ← newVar
    let a ← inferExpr o n x cx.scope
    let b ← inferExpr o n y cx.scope
    unifyVarBaseset o n a .uAny32
    unifyVarPair o n a b
    let r ← inferFormatWith f cx lv
    unifyVarUtype o n v (.var r.1)
    pure (v, r.2)
  | .map f e, cx, lv => do
    let v ← newVar
    let r ← inferFormatWith f cx lv
    let io ← inferLambda o n e cx.scope
    unifyVarUtype o n io.1 (.var r.1)
    unifyVarPair o n v io.2
    pure (v, r.2)
  | .where_ f e _, cx, lv => do
    let v ← newVar
    let r ← inferFormatWith f cx lv
    let io ← inferLambda o n e cx.scope
    unifyVarPair o n v io.1
    unifyVarUtype o n v (.var r.1)
    unifyVarUtype o n io.2 (.base .bool)
    pure (v, r.2)
  | .compute e, cx, lv => do
    let v ← newVar
    let a ← inferExpr o n e cx.scope
    unifyVarUtype o n v (.var a)
    pure (v, lv)
  | .let_ x e f, cx, lv => do
    let v ← newVar
    let a ← inferExpr o n e cx.scope
    let r ← inferFormatWith f { cx with scope := (x, a) :: cx.scope } lv
    unifyVarUtype o n v (.var r.1)
    pure (v, r.2)
  | .letView x f, cx, lv => do
    let v ← newVar
    let r ← inferFormatWith f { cx with views := x :: cx.views } lv
    unifyVarUtype o n v (.var r.1)
    pure (v, r.2)
  | .match_ e bs, cx, lv => do
    let v ← newVar
    let a ← inferExpr o n e cx.scope
    let lv' ← inferCases bs a v cx lv
    pure (v, lv')
  | .dynamic x ls vs f, cx, lv => do
    let v ← newVar
    let d ← inferDyn o n cx ls vs
    let r ← inferFormatWith f { cx with dyns := (x, d) :: cx.dyns } lv
    unifyVarUtype o n v (.var r.1)
    pure (v, r.2)
  | .apply x, cx, lv => do
    let v ← newVar
    let d ← TcM.ofPanicky (Panicky.unwrap (TMap.get x cx.dyns))
    unifyVarPair o n v d
    pure (v, lv)
  | .pos, _, lv => do
    let v ← newVar
    unifyVarBaseset o n v (.u (UintSet.anyDefault .b64))
    pure (v, lv)
  | .letFormat f x g, cx, lv => do
    let v ← newVar
    let r ← inferFormatWith f cx lv
    let r' ← inferFormatWith g { cx with scope := (x, r.1) :: cx.scope } r.2
    unifyVarPair o n v r'.1
    pure (v, r'.2)
  | .monadSeq f g, cx, lv => do
    let v ← newVar
    let r ← inferFormatWith f cx lv
    let r' ← inferFormatWith g cx r.2
    unifyVarPair o n v r'.1
    pure (v, r'.2)
  | .hint f, cx, lv => do
    let v ← newVar
    let r ← inferFormatWith f cx lv
    unifyVarPair o n v r.1
    pure (v, r.2)
  | .enforce f, cx, lv => do
    let v ← newVar
    let r ← inferFormatWith f cx lv
    unifyVarPair o n v r.1
    pure (v, r.2)
  | .permit f e, cx, lv => do
    let v ← newVar
    let r ← inferFormatWith f cx lv
    let a ← inferExpr o n e cx.scope
    unifyVarPair o n v r.1
    unifyVarPair o n v a
    pure (v, r.2)
  | .liftedNone, _, lv => do
    let v ← newVar
    let w ← newVar
    unifyVarUtype o n v (.option (.var w))
    pure (v, lv)
  | .liftedSome f, cx, lv => do
    let v ← newVar
    let r ← inferFormatWith f cx lv
    unifyVarUtype o n v (.option (.var r.1))
    pure (v, r.2)
  | .captureBytes x len, cx, lv => do
    let v ← newVar
    traverseView o n cx x
    let w ← newVar
    let a ← inferExpr o n len cx.scope
    unifyVarBaseset o n a .uAny
    unifyVarUtype o n w (.seq (.base (.num .b8)) .bufferView)
    unifyVarPair o n v w
    pure (v, lv)
  | .readArray x len kind, cx, lv => do
    let v ← newVar
    traverseView o n cx x
    let w ← newVar
    let a ← inferExpr o n len cx.scope
    unifyVarBaseset o n a .uAny
    unifyVarUtype o n w (.seq (.base (.num kind.width)) .readArray)
    unifyVarPair o n v w
    pure (v, lv)
  | .reifyView x, cx, lv => do
    let v ← newVar
    traverseView o n cx x
    let w ← initVarSimple o n .viewObj
    unifyVarPair o n v w
    pure (v, lv)
/-- the loop of `infer_var_format_union` (src/typecheck.rs:3370-3390) -/
def inferUnion : List Format → Nat → Ctxt → Levels → TcM Levels
  | [], _, _, lv => pure lv
  | f :: fs, v, cx, lv =>
    match f with
    | .variant l g => do
      let r ← inferFormatWith g cx lv
      addUvarVariant o n v l (.var r.1)
      inferUnion fs v cx r.2
    | g => do
      let r ← inferFormatWith g cx lv
      unifyVarUtype o n v (.var r.1)
      inferUnion fs v cx r.2
/-- the loop over the components of a tuple (src/typecheck.rs:3492-3494) -/
def inferComponents : List Format → Ctxt → Levels → TcM (List UType × Levels)
  | [], _, lv => pure ([], lv)
  | f :: fs, cx, lv => do
    let r ← inferFormatWith f cx lv
    let rs ← inferComponents fs cx r.2
    pure (.var r.1 :: rs.1, rs.2)
/-- the loop over the elements of a sequence (src/typecheck.rs:3501-3504) -/
def inferSequence : List Format → Nat → Ctxt → Levels → TcM Levels
  | [], _, _, lv => pure lv
  | f :: fs, e, cx, lv => do
    let r ← inferFormatWith f cx lv
    unifyVarPair o n e r.1
    inferSequence fs e cx r.2
/-- the loop over the branches of a match, with `unify_utype_format_match_case`
(src/typecheck.rs:890-912, 3676-3678) -/
def inferCases : List (Pattern × Format) → Nat → Nat → Ctxt → Levels → TcM Levels
  | [], _, _, _, lv => pure lv
  | (p, f) :: bs, h, v, cx, lv => do
    let q ← inferPattern o n p cx.scope
    let r ← inferFormatWith f { cx with scope := q.2 } lv
    unifyVarUtype o n q.1 (.var h)
    unifyVarPair o n v r.1
    inferCases bs h v cx r.2
end

end

/-- `infer_var_format_level` (src/typecheck.rs:977-985), at most `k` items deep. -/
def inferLevel (o : Orders) (n : Nat) (m : Module) (ats : List (List ValueType)) :
    Nat → Nat → Ctxt → Levels → TcM (Nat × Levels)
  | 0, _, _, _ => TcM.fuel
  | k + 1, l, cx, lv =>
    match NMap.get l lv with
    | some v => pure (v, lv)
    | none => do
      let it ← TcM.ofPanicky (m.get l)
      let r ← inferFormatWith o n m ats (inferLevel o n m ats k) it.format cx lv
      pure (r.1, NMap.insert l r.1 r.2)

/-- `infer_var_format` (src/typecheck.rs:3393-3760), at most `k` items deep. -/
def inferFormat (o : Orders) (n : Nat) (m : Module) (ats : List (List ValueType)) (k : Nat) (f : Format) (cx : Ctxt)
    (lv : Levels) : TcM (Nat × Levels) :=
  inferFormatWith o n m ats (inferLevel o n m ats k) f cx lv

/-! ### reading the result -/

/-- `is_infinite_type` (src/typecheck.rs:1202-1208), with `iter_embedded` (src/typecheck.rs:423-437): is the occurs
check of a variable in the type an error? -/
def isInfinite (o : Orders) (n : Nat) (st : Checker) : UType → Outcome Unit Bool
  | .hole => .ok false
  | .empty => .ok false
  | .viewObj => .ok false
  | .base _ => .ok false
  | .int _ => .ok false
  | .var v =>
    match occurs o n v st with
    | .ok _ => .ok false
    | .err _ => .ok true
    | .panic => .panic
    | .fuel => .fuel
  | .tuple ts => any ts
  | .record fs => anyField fs
  | .seq t _ => isInfinite o n st t
  | .option t => isInfinite o n st t
  | .phantom t => isInfinite o n st t
where
  /-- some component (src/typecheck.rs:1206) -/
  any : List UType → Outcome Unit Bool
    | [] => .ok false
    | t :: ts => do
      let b ← isInfinite o n st t
      if b then .ok true else any ts
  /-- some field (src/typecheck.rs:1206) -/
  anyField : List (String × UType) → Outcome Unit Bool
    | [] => .ok false
    | (_, t) :: fs => do
      let b ← isInfinite o n st t
      if b then .ok true else anyField fs

/-- `VType` (src/typecheck.rs:441-452); the contents of implicit tuples and records are not used. -/
inductive VType where
  | base (bs : BaseSet)
  | int (is : IntSet)
  | abstract (t : UType)
  | implicit
  | union (id : Nat)

/-- `proj_shape_to_vtype` (src/typecheck.rs:1599-1620). -/
def projVType : ProjShape → VType
  | .tupleWith _ => .implicit
  | .recordWith _ => .implicit
  | .seqOf v => .abstract (.seqOf (.var v))
  | .optOf v => .abstract (.option (.var v))

/-- `to_whnf_vtype` (src/typecheck.rs:941-957); the assertion panics on an infinite type. -/
def toWhnf (o : Orders) (n : Nat) (st : Checker) : Nat → UType → Outcome Unit VType
  | 0, _ => .fuel
  | k + 1, t => do
    let b ← isInfinite o n st t
    if b then .panic
    else
      match t with
      | .var v => do
        let c ← Outcome.ofPanicky (st.aliases.getCanonical v)
        let cs ← Outcome.ofPanicky (Panicky.unwrap st.constraints[c]?)
        match cs with
        | .invariant (.equiv u) => toWhnf o n st k u
        | .invariant (.elem bs) => .ok (.base bs)
        | .invariant (.proj p) => .ok (projVType p)
        | .invariant (.numTree is) => .ok (.int is)
        | .variant id => .ok (.union id)
        | .indefinite => .ok (.abstract (.var c))
      | t => .ok (.abstract t)

/-- `substitute_uvar_vtype` (src/typecheck.rs:3021-3033); `.err` is the failed occurs check. -/
def substituteVar (o : Orders) (n : Nat) (st : Checker) (v : Nat) : Outcome Unit (Option VType) := do
  match occurs o n v st with
  | .err e => .err e
  | .panic => .panic
  | .fuel => .fuel
  | .ok _ => do
    let c ← Outcome.ofPanicky (st.aliases.getCanonical v)
    let cs ← Outcome.ofPanicky (Panicky.unwrap st.constraints[c]?)
    match cs with
    | .indefinite => .ok none
    | .variant id => .ok (some (.union id))
    | .invariant (.equiv t) => do
      let w ← toWhnf o n st n t
      .ok (some w)
    | .invariant (.elem bs) => .ok (some (.base bs))
    | .invariant (.numTree is) => .ok (some (.int is))
    | .invariant (.proj p) => .ok (some (projVType p))

/-- `?` on an `Option` inside a loop: the next item, or `none` -/
def andThen {α β : Type} (x : Outcome Unit (Option α)) (f : α → Outcome Unit (Option β)) : Outcome Unit (Option β) := do
  match ← x with
  | none => .ok none
  | some a => f a

/-- the loop over the components of a tuple (src/typecheck.rs:3855-3857) -/
def reifyList (rec : UType → Outcome Unit (Option ValueType)) : List UType → Outcome Unit (Option (List ValueType))
  | [] => .ok (some [])
  | t :: ts => andThen (rec t) fun T => andThen (reifyList rec ts) fun Ts => .ok (some (T :: Ts))

/-- the loop over the fields of a record (src/typecheck.rs:3863-3865) -/
def reifyFields (rec : UType → Outcome Unit (Option ValueType)) :
    List (String × UType) → Outcome Unit (Option (List (String × ValueType)))
  | [] => .ok (some [])
  | (l, t) :: fs => andThen (rec t) fun T => andThen (reifyFields rec fs) fun Ts => .ok (some ((l, T) :: Ts))

/-- the loop of `reify_union` (src/typecheck.rs:3879-3885): variants of type `Empty` are dropped -/
def reifyBranches (rec : UType → Outcome Unit (Option ValueType)) :
    List (String × UType) → Outcome Unit (Option (List (String × ValueType)))
  | [] => .ok (some [])
  | (l, t) :: fs => andThen (rec t) fun T => andThen (reifyBranches rec fs) fun Ts =>
      match T with
      | .empty => .ok (some Ts)
      | T => .ok (some ((l, T) :: Ts))

/-- `reify_union` (src/typecheck.rs:3876-3887); the map of variants is visited in the order of its labels (the
order decides only which comes first if one variant has no unique type and reading another one panics). -/
def reifyUnion (st : Checker) (rec : UType → Outcome Unit (Option ValueType)) (id : Nat) :
    Outcome Unit (Option ValueType) :=
  match st.store id with
  | none => .panic
  | some vm => andThen (reifyBranches rec vm) fun bs => .ok (some (.union bs))

/-- `reify` (src/typecheck.rs:3814-3874) followed by the conversion to `ValueType` (src/valuetype.rs:481-505),
which forgets how sequences are borrowed. -/
def reify (o : Orders) (n : Nat) (st : Checker) : Nat → UType → Outcome Unit (Option ValueType)
  | 0, _ => .fuel
  | k + 1, t =>
    match t with
    | .hole => .ok none
    | .viewObj => .ok (some .viewObj)
    | .int m => .ok (some (.ofMachine m))
    | .var uv => do
      let v ← Outcome.ofPanicky (st.aliases.getCanonical uv)
      match substituteVar o n st v with
      | .err _ => .ok none
      | .panic => .panic
      | .fuel => .fuel
      | .ok none => .ok none
      | .ok (some (.base bs)) =>
        match bs.uniqueSolution with
        | .found b => .ok (some (.base b))
        | _ => .ok none
      | .ok (some (.int is)) =>
        match is.uniqueSolution with
        | .found m => .ok (some (.ofMachine m))
        | _ => .ok none
      | .ok (some (.abstract ut)) => reify o n st k ut
      | .ok (some (.union id)) => reifyUnion st (reify o n st k) id
      | .ok (some .implicit) => .panic
    | .base b => .ok (some (.base b))
    | .empty => .ok (some .empty)
    | .tuple ts => andThen (reifyList (reify o n st k) ts) fun Ts => .ok (some (.tuple Ts))
    | .record fs => andThen (reifyFields (reify o n st k) fs) fun Fs => .ok (some (.record Fs))
    | .seq t _ => andThen (reify o n st k t) fun T => .ok (some (.seq T))
    | .option t => andThen (reify o n st k t) fun T => .ok (some (.option T))
    | .phantom t => andThen (reify o n st k t) fun T => .ok (some (.phantom T))

/-- `typecheck` (src/typecheck.rs:4050-4059): infer from an empty checker, then read the type; `none` when there is
no unique one.  `check_uvar_sanity` (src/typecheck.rs:1095-1097) is the assertion at the end. -/
def typecheck (o : Orders) (n : Nat) (m : Module) (ats : List (List ValueType)) (k : Nat) (f : Format) :
    Outcome Unit (Option ValueType) :=
  match inferFormat o n m ats k f Ctxt.empty [] Checker.new with
  | .err e => .err e
  | .panic => .panic
  | .fuel => .fuel
  | .ok (r, st) => do
    let T ← reify o n st n (.var r.1)
    if st.constraints.length = st.aliases.length then .ok T else .panic

/-- the loop of `infer_module` (src/typecheck.rs:3784-3794) over the items not seen so far, the lowest first -/
def inferRest (o : Orders) (n : Nat) (m : Module) (ats : List (List ValueType)) (k : Nat) :
    List Nat → Levels → TcM Levels
  | [], lv => pure lv
  | l :: ls, lv =>
    match NMap.get l lv with
    | some _ => inferRest o n m ats k ls lv
    | none => do
      let it ← TcM.ofPanicky (m.get l)
      let r ← inferFormat o n m ats k it.format Ctxt.empty lv
      inferRest o n m ats k ls r.2

/-- `infer_module` (src/typecheck.rs:3771-3796): the top format first, then the items it does not use. -/
def inferModule (o : Orders) (n : Nat) (m : Module) (ats : List (List ValueType)) (k : Nat) (top : Format) :
    TcM (Nat × Levels) := do
  let r ← inferFormat o n m ats k top Ctxt.empty []
  let lv ← inferRest o n m ats k (List.range m.items.length) r.2
  pure (r.1, lv)

end Tc
end Doodle
