import Verif.Model.Outcome
import Verif.Model.NumCore
import Verif.Model.BaseSet

/-!
Model of the tables of aliased metavariables shared in form by /repo/src/typecheck.rs and
/repo/src/typecheck/inference.rs, of the inference engine for numeric expressions
(/repo/src/typecheck/inference.rs), and of the elaboration that reads off its solutions
(/repo/src/numeric/elaborator.rs).

* `IntType`, `PrimInt` are `MachineRep` (src/numeric/elaborator.rs:109-136 are bijections).
* The state of the engine after an error is not modelled: every caller returns the error.
* Calls that unify constraints call each other recursively: they take a bound on the depth of the calls.
-/

namespace Doodle
namespace Tc

open Num (MachineRep NumRep TypedConst)

/-! ### aliases -/

/-- `Alias` (src/typecheck.rs:459-464); the `HashSet` is a list without repetitions. -/
inductive Alias where
  | ground
  | backRef (ix : Nat)
  | canonical (fwd : List Nat)
deriving DecidableEq, Repr

namespace Alias

/-- `Alias::is_canonical_nonempty` (src/typecheck.rs:479-484). -/
def isCanonicalNonempty : Alias → Bool
  | .canonical x => !x.isEmpty
  | _ => false

/-- `Alias::add_forward_ref` (src/typecheck.rs:499-509). -/
def addForwardRef (tgt : Nat) : Alias → Panicky Alias
  | .ground => .ok (.canonical [tgt])
  | .backRef _ => .panic
  | .canonical fwd => .ok (.canonical (if tgt ∈ fwd then fwd else fwd ++ [tgt]))

/-- `Alias::iter_fwd_refs` (src/typecheck.rs:518-523). -/
def fwdRefs : Alias → List Nat
  | .canonical fwd => fwd
  | _ => []

/-- `Alias::contains_fwd_ref` (src/typecheck.rs:526-531). -/
def containsFwdRef (tgt : Nat) : Alias → Bool
  | .canonical fwd => decide (tgt ∈ fwd)
  | _ => false

end Alias

/-- the vector `aliases` of a `TypeChecker` or an `InferenceEngine` -/
abbrev Aliases := List Alias

namespace Aliases

/-- `self.aliases[ix]` -/
def get (t : Aliases) (ix : Nat) : Panicky Alias := Panicky.unwrap t[ix]?

/-- `get_canonical` (src/typecheck/inference.rs:226-231). -/
def getCanonical (t : Aliases) (v : Nat) : Panicky Nat := do
  match ← t.get v with
  | .backRef ix => .ok ix
  | _ => .ok v

/-- `repoint` (src/typecheck/inference.rs:266-269, src/typecheck.rs:3251-3254). -/
def repoint (t : Aliases) (lo hi : Nat) : Panicky Aliases := do
  let _ ← t.get hi
  let t1 : Aliases := t.set hi (.backRef lo)
  let a ← t1.get lo
  let a' ← a.addForwardRef hi
  .ok (t1.set lo a')

/-- the loop of `recanonicalize` (src/typecheck/inference.rs:492-498, src/typecheck.rs:3229-3235) -/
def repointAll (a1 : Nat) : Aliases → List Nat → Panicky Aliases
  | t, [] => .ok t
  | t, a :: rest => do
    let al ← t.get a1
    if al.containsFwdRef a then .panic
    else do
      let t' ← t.repoint a1 a
      repointAll a1 t' rest

/-- `recanonicalize`, before its call of `transfer_constraints` (src/typecheck/inference.rs:489-499,
src/typecheck.rs:3226-3236). -/
def recanonicalize (t : Aliases) (a1 a2 : Nat) : Panicky Aliases := do
  let tmp ← t.get a2
  let t' ← repointAll a1 (t.set a2 (.backRef a1)) tmp.fwdRefs
  let al ← t'.get a1
  let al' ← al.addForwardRef a2
  .ok (t'.set a1 al')

/-- what `unify_var_pair` does once the aliases are up to date: nothing, or `transfer_constraints` -/
inductive Plan where
  | same (ix : Nat)
  | transfer (a1 a2 : Nat)
deriving DecidableEq, Repr

/-- `debug_assert!(c)` (debug builds), before going on -/
def assertThen {α : Type} (c : Bool) (k : Panicky α) : Panicky α := if c then k else .panic

/-- `repoint` followed by `transfer_constraints` with the same arguments -/
def repointPlan (t : Aliases) (lo hi : Nat) : Panicky (Plan × Aliases) := do
  let t' ← t.repoint lo hi
  .ok (.transfer lo hi, t')

/-- `recanonicalize` -/
def recanonPlan (t : Aliases) (a1 a2 : Nat) : Panicky (Plan × Aliases) := do
  let t' ← t.recanonicalize a1 a2
  .ok (.transfer a1 a2, t')

/-- the arms of `unify_var_pair` for a back-reference `v` to `tgt` and a canonical `c` with forward references
`fwds` (src/typecheck/inference.rs:424-450, src/typecheck.rs:3155-3178) -/
def pairBackCanonical (t : Aliases) (v tgt c : Nat) (fwds : List Nat) : Panicky (Plan × Aliases) :=
  match decide (v ∈ fwds), decide (tgt = c) with
  | true, true => .ok (.same c, t)
  | false, false => if tgt < c then t.recanonPlan tgt c else t.recanonPlan c tgt
  | _, _ => .panic

/-- `unify_var_pair`, up to the call of `transfer_constraints` (src/typecheck.rs:3052-3211,
src/typecheck/inference.rs:324-487).  The copies differ in one assertion: in the arm for a ground `v1` below the
target of `v2`, `wrong` is `v1` in src/typecheck.rs:3081 and `v2` in src/typecheck/inference.rs:353. -/
def pair (wrong : Nat → Nat → Nat) (t : Aliases) (v1 v2 : Nat) : Panicky (Plan × Aliases) :=
  if v1 = v2 then do
    let _ ← t.get v1
    .ok (.same v1, t)
  else do
    let x ← t.get v1
    let y ← t.get v2
    match x, y with
    | .ground, .ground => if v1 < v2 then t.repointPlan v1 v2 else t.repointPlan v2 v1
    | .ground, .backRef can =>
      if v1 > can then t.repointPlan can v1
      else if v1 < can then do
        let c ← t.get can
        assertThen c.isCanonicalNonempty <| assertThen (!c.containsFwdRef (wrong v1 v2)) <| t.recanonPlan v1 can
      else .panic
    | .backRef can, .ground =>
      if v2 > can then t.repointPlan can v2
      else if v2 < can then do
        let c ← t.get can
        assertThen c.isCanonicalNonempty <| assertThen (!c.containsFwdRef v2) <| t.recanonPlan v2 can
      else .panic
    | .ground, .canonical _ =>
      if v1 < v2 then assertThen (!y.containsFwdRef v1) <| t.recanonPlan v1 v2 else t.repointPlan v2 v1
    | .canonical _, .ground =>
      if v2 < v1 then assertThen (!x.containsFwdRef v2) <| t.recanonPlan v2 v1 else t.repointPlan v1 v2
    | .backRef ix1, .backRef ix2 =>
      if ix1 < ix2 then t.recanonPlan ix1 ix2
      else if ix2 < ix1 then t.recanonPlan ix2 ix1
      else do
        let common ← t.get ix1
        assertThen (common.containsFwdRef v1) <| assertThen (common.containsFwdRef v2) <| .ok (.same ix1, t)
    | .backRef tgt, .canonical fwds => pairBackCanonical t v1 tgt v2 fwds
    | .canonical fwds, .backRef tgt => pairBackCanonical t v2 tgt v1 fwds
    | .canonical _, .canonical _ => if v1 < v2 then t.recanonPlan v1 v2 else t.recanonPlan v2 v1

/-- the table of `TypeChecker::unify_var_pair` (src/typecheck.rs:3052-3211) -/
def pairChecker : Aliases → Nat → Nat → Panicky (Plan × Aliases) := pair fun v1 _ => v1

/-- the table of `InferenceEngine::unify_var_pair` (src/typecheck/inference.rs:324-487) -/
def pairEngine : Aliases → Nat → Nat → Panicky (Plan × Aliases) := pair fun _ v2 => v2

/-- A use of the table: a new variable (`TypeChecker::get_new_uvar`, src/typecheck.rs:760-765,
`InferenceEngine::get_new_nvar`, src/typecheck/inference.rs:208-213), or a request for two variables to be
equal. -/
inductive Request where
  | fresh
  | join (v1 v2 : Nat)
deriving DecidableEq, Repr

/-- the table after a history of uses, for one of the copies of `unify_var_pair` -/
def run (join : Aliases → Nat → Nat → Panicky (Plan × Aliases)) : List Request → Aliases → Panicky Aliases
  | [], t => .ok t
  | .fresh :: rest, t => run join rest (t ++ [Alias.ground])
  | .join v1 v2 :: rest, t => do
    let r ← join t v1 v2
    run join rest r.2

end Aliases

/-! ### constraints -/

/-- `NUType` (src/typecheck/inference.rs:8-12). -/
inductive NUType where
  | var (v : Nat)
  | int (t : MachineRep)
deriving DecidableEq, Repr

/-- `Constraint` (src/typecheck/inference.rs:119-124). -/
inductive Constraint where
  | equiv (t : NUType)
  | encompasses (b : Num.Bounds)
deriving DecidableEq, Repr

/-- `InferenceError` (src/typecheck/error.rs:368-377), the kinds that occur here. -/
inductive InferenceError where
  | badUnification (c1 c2 : Constraint)
  | ambiguous
  | noSolution
  | multipleSolutions
  | unconstrainedVar (v : Nat)
  | unscopedVariable (l : String)
deriving DecidableEq, Repr

/-- `InferenceEngine` (src/typecheck/inference.rs:185-190); `Constraints::Indefinite` is `none`. -/
structure Engine where
  constraints : List (Option Constraint)
  aliases : Aliases
deriving DecidableEq, Repr

namespace Engine

/-- `InferenceEngine::new` (src/typecheck/inference.rs:193-199). -/
def new : Engine := ⟨[], []⟩

/-- `get_new_nvar` (src/typecheck/inference.rs:208-213). -/
def getNewNvar (g : Engine) : Nat × Engine :=
  (g.constraints.length, ⟨g.constraints ++ [none], g.aliases ++ [.ground]⟩)

/-- `self.constraints[ix]` -/
def constraintsAt (g : Engine) (ix : Nat) : Outcome InferenceError (Option Constraint) :=
  Outcome.ofPanicky (Panicky.unwrap g.constraints[ix]?)

/-- `replace_constraints_with_value` (src/typecheck/inference.rs:314-317); the caller has read index `ix`. -/
def setConstraints (g : Engine) (ix : Nat) (c : Option Constraint) : Engine :=
  { g with constraints := g.constraints.set ix c }

/-- the test of `unify_utype_bounds` and of `is_satisfied_by` (src/typecheck/inference.rs:149-156, 550-552) -/
def fits (b : Num.Bounds) (t : MachineRep) : Panicky Bool := b.isEncompassedBy t.asBounds

mutual
/-- `unify_var_constraint` (src/typecheck/inference.rs:233-257). -/
def unifyVarConstraint : Nat → Engine → Nat → Constraint → Outcome InferenceError (Constraint × Engine)
  | 0, _, _, _ => .fuel
  | n + 1, g, v, c => do
    let can ← Outcome.ofPanicky (g.aliases.getCanonical v)
    match ← g.constraintsAt can with
    | none => .ok (c, g.setConstraints can (some c))
    | some prior =>
      if prior = c then .ok (prior, g)
      else do
        let r ← unifyConstraintPair n g prior c
        .ok (r.1, r.2.setConstraints can (some r.1))

/-- `transfer_constraints` (src/typecheck/inference.rs:281-301): the constraints returned are a reference into
the table and are not modelled. -/
def transferConstraints : Nat → Engine → Nat → Nat → Outcome InferenceError (Unit × Engine)
  | 0, _, _, _ => .fuel
  | n + 1, g, a1, a2 =>
    if a1 = a2 then do
      let _ ← g.constraintsAt a1
      .ok ((), g)
    else do
      match ← g.constraintsAt a1, ← g.constraintsAt a2 with
      | none, none => .ok ((), g)
      | none, some c2 => .ok ((), g.setConstraints a1 (some c2))
      | some c1, none => .ok ((), g.setConstraints a2 (some c1))
      | some c1, some c2 => do
        let r ← unifyConstraintPair n g c1 c2
        .ok ((), (r.2.setConstraints a1 (some r.1)).setConstraints a2 (some r.1))

/-- `unify_var_pair` (src/typecheck/inference.rs:324-487). -/
def unifyVarPair : Nat → Engine → Nat → Nat → Outcome InferenceError (Unit × Engine)
  | 0, _, _, _ => .fuel
  | n + 1, g, v1, v2 => do
    let r ← Outcome.ofPanicky (g.aliases.pairEngine v1 v2)
    match r.1 with
    | .same ix => do
      let _ ← g.constraintsAt ix
      .ok ((), { g with aliases := r.2 })
    | .transfer a1 a2 => transferConstraints n { g with aliases := r.2 } a1 a2

/-- `unify_utype` (src/typecheck/inference.rs:503-539). -/
def unifyUtype : Nat → Engine → NUType → NUType → Outcome InferenceError (NUType × Engine)
  | 0, _, _, _ => .fuel
  | n + 1, g, left, right =>
    match left, right with
    | .var v1, .var v2 => do
      let r ← unifyVarPair n g v1 v2
      .ok (.var (min v1 v2), r.2)
    | .var v, .int t => do
      let r ← unifyVarConstraint n g v (.equiv (.int t))
      match r.1 with
      | .equiv t => .ok (t, r.2)
      | .encompasses _ => .panic
    | .int t, .var v => do
      let r ← unifyVarConstraint n g v (.equiv (.int t))
      match r.1 with
      | .equiv t => .ok (t, r.2)
      | .encompasses _ => .panic
    | .int t0, .int t1 =>
      if t0 ≠ t1 then .err (.badUnification (.equiv left) (.equiv right)) else .ok (left, g)

/-- `unify_utype_bounds` (src/typecheck/inference.rs:541-565). -/
def unifyUtypeBounds : Nat → Engine → NUType → Num.Bounds → Outcome InferenceError (Constraint × Engine)
  | 0, _, _, _ => .fuel
  | n + 1, g, utype, bounds =>
    match utype with
    | .var v => unifyVarConstraint n g v (.encompasses bounds)
    | .int t => do
      let soluble ← Outcome.ofPanicky (fits bounds t)
      if soluble then .ok (.equiv utype, g)
      else .err (.badUnification (.equiv utype) (.encompasses bounds))

/-- `unify_constraint_pair` (src/typecheck/inference.rs:584-606). -/
def unifyConstraintPair : Nat → Engine → Constraint → Constraint → Outcome InferenceError (Constraint × Engine)
  | 0, _, _, _ => .fuel
  | n + 1, g, c1, c2 =>
    match c1, c2 with
    | .equiv t1, .equiv t2 =>
      if t1 = t2 then .ok (.equiv t1, g)
      else do
        let r ← unifyUtype n g t1 t2
        .ok (.equiv r.1, r.2)
    | .equiv utype, .encompasses bounds => unifyUtypeBounds n g utype bounds
    | .encompasses bounds, .equiv utype => unifyUtypeBounds n g utype bounds
    | .encompasses bs1, .encompasses bs2 => do
      let bs0 ← Outcome.ofPanicky (bs1.unify bs2)
      .ok (.encompasses bs0, g)
end

/-- `init_var_simple` (src/typecheck/inference.rs:201-206). -/
def initVarSimple (fuel : Nat) (g : Engine) (t : NUType) : Outcome InferenceError (Nat × Engine) := do
  let nv := g.getNewNvar
  let r ← unifyVarConstraint fuel nv.2 nv.1 (.equiv t)
  .ok (nv.1, r.2)

/-- `unify_var_rep` with `unify_var_utype` (src/typecheck/inference.rs:567-578). -/
def unifyVarRep (fuel : Nat) (g : Engine) (v : Nat) : NumRep → Outcome InferenceError (Unit × Engine)
  | .auto => .ok ((), g)
  | .concrete t => do
    let r ← unifyVarConstraint fuel g v (.equiv (.int t))
    .ok ((), r.2)

/-- the binary arm of `infer_var_expr` once both operands are inferred
(src/typecheck/inference.rs:666-722) -/
def inferBin (fuel : Nat) (g : Engine) (this l r : Nat) (lRep rRep : NumRep) (cast : Option MachineRep) :
    Outcome InferenceError (NumRep × Engine) :=
  match lRep, rRep with
  | .auto, .auto => do
    let a ← unifyVarPair fuel g this l
    let b ← unifyVarPair fuel a.2 this r
    match cast with
    | some rep => do
      let c ← unifyVarRep fuel b.2 this (.concrete rep)
      .ok (.concrete rep, c.2)
    | none => .ok (.auto, b.2)
  | rep0, rep1 =>
    if rep0 = rep1 then
      match cast with
      | some rep => do
        let c ← unifyVarRep fuel g this (.concrete rep)
        .ok (.concrete rep, c.2)
      | none => do
        let c ← unifyVarRep fuel g this rep0
        .ok (rep0, c.2)
    else
      match cast with
      | some rep => do
        let c ← unifyVarRep fuel g this (.concrete rep)
        let c ← if rep0.isAuto then unifyVarPair fuel c.2 this l else .ok ((), c.2)
        let c ← if rep1.isAuto then unifyVarPair fuel c.2 this r else .ok ((), c.2)
        .ok (.concrete rep, c.2)
      | none =>
        if rep0.isAuto then do
          let c ← unifyVarRep fuel g this rep1
          let c ← unifyVarRep fuel c.2 l rep1
          .ok (rep1, c.2)
        else if rep1.isAuto then do
          let c ← unifyVarRep fuel g this rep0
          let c ← unifyVarRep fuel c.2 r rep0
          .ok (rep0, c.2)
        else .err .ambiguous

/-- the unary arm, once the operand is inferred (src/typecheck/inference.rs:729-750) -/
def inferUnary (fuel : Nat) (g : Engine) (this inner : Nat) (innerRep : NumRep) (cast : Option MachineRep) :
    Outcome InferenceError (NumRep × Engine) :=
  match innerRep with
  | .auto => do
    let a ← unifyVarPair fuel g this inner
    match cast with
    | some rep => do
      let c ← unifyVarRep fuel a.2 this (.concrete rep)
      .ok (.concrete rep, c.2)
    | none => .ok (.auto, a.2)
  | rep0 =>
    match cast with
    | some rep => do
      let c ← unifyVarRep fuel g this (.concrete rep)
      .ok (.concrete rep, c.2)
    | none => do
      let c ← unifyVarRep fuel g this rep0
      .ok (rep0, c.2)

/-- `infer_var_expr` (src/typecheck/inference.rs:610-764). -/
def inferVarExpr (fuel : Nat) : Num.Expr → Engine → Outcome InferenceError ((Nat × NumRep) × Engine)
  | .numVar l, _ => .err (.unscopedVariable l)
  | .const c, g =>
    match c.rep with
    | .auto => do
      let nv := g.getNewNvar
      let r ← unifyVarConstraint fuel nv.2 nv.1 (.encompasses ⟨c.val, c.val⟩)
      .ok ((nv.1, .auto), r.2)
    | .concrete t => do
      let r ← initVarSimple fuel g (.int t)
      .ok ((r.1, .concrete t), r.2)
  | .binOp _ cast lhs rhs, g => do
    let nv := g.getNewNvar
    let l ← inferVarExpr fuel lhs nv.2
    let r ← inferVarExpr fuel rhs l.2
    let t ← inferBin fuel r.2 nv.1 l.1.1 r.1.1 l.1.2 r.1.2 cast
    .ok ((nv.1, t.1), t.2)
  | .unaryOp _ cast e, g => do
    let nv := g.getNewNvar
    let i ← inferVarExpr fuel e nv.2
    let t ← inferUnary fuel i.2 nv.1 i.1.1 i.1.2 cast
    .ok ((nv.1, t.1), t.2)
  | .cast rep _ e, g => do
    let nv := g.getNewNvar
    let i ← inferVarExpr fuel e nv.2
    let c ← if i.1.2.isAuto then unifyVarRep fuel i.2 i.1.1 (.concrete rep) else .ok ((), i.2)
    let c ← unifyVarRep fuel c.2 nv.1 (.concrete rep)
    .ok ((nv.1, .concrete rep), c.2)

/-- `NVType` (src/typecheck/inference.rs:26-32). -/
inductive NVType where
  | int (t : MachineRep)
  | within (b : Num.Bounds)
  | abstract (t : NUType)

/-- `to_whnf_vtype` (src/typecheck/inference.rs:766-783). -/
def toWhnf : Nat → Engine → NUType → Outcome InferenceError NVType
  | 0, _, _ => .fuel
  | n + 1, g, .var v => do
    let v0 ← Outcome.ofPanicky (g.aliases.getCanonical v)
    match ← g.constraintsAt v0 with
    | none => .ok (.abstract (.var v0))
    | some (.equiv ut) => toWhnf n g ut
    | some (.encompasses b) => .ok (.within b)
  | _ + 1, _, .int t => .ok (.int t)

/-- `substitute_nvar_nvtype` (src/typecheck/inference.rs:782-790). -/
def substitute (fuel : Nat) (g : Engine) (v : Nat) : Outcome InferenceError (Option NVType) := do
  let v0 ← Outcome.ofPanicky (g.aliases.getCanonical v)
  match ← g.constraintsAt v0 with
  | none => .ok none
  | some (.equiv ut) => do
    let t ← toWhnf fuel g ut
    .ok (some t)
  | some (.encompasses b) => .ok (some (.within b))

/-- the loop of `get_unique_solution` (src/typecheck/inference.rs:161-174) -/
def solutionsLoop (b : Num.Bounds) : List MachineRep → Panicky (List MachineRep)
  | [] => .ok []
  | t :: ts => do
    let s ← fits b t
    let rest ← solutionsLoop b ts
    .ok (if s then t :: rest else rest)

/-- `Constraint::get_unique_solution` on `Encompasses` (src/typecheck/inference.rs:159-180). -/
def uniqueSolution (b : Num.Bounds) : Outcome InferenceError MachineRep := do
  match ← Outcome.ofPanicky (solutionsLoop b ((List.finRange 8).map primAt)) with
  | [] => .err .noSolution
  | [t] => .ok t
  | _ => .err .multipleSolutions

/-- `reify_err` (src/typecheck/inference.rs:799-823). -/
def reifyErr : Nat → Engine → NUType → Outcome InferenceError MachineRep
  | 0, _, _ => .fuel
  | n + 1, g, .var uv => do
    let v ← Outcome.ofPanicky (g.aliases.getCanonical uv)
    match ← substitute n g v with
    | some (.int t) => .ok t
    | some (.within b) => uniqueSolution b
    | some (.abstract ut) => reifyErr n g ut
    | none => .err (.unconstrainedVar v)
  | _ + 1, _, .int t => .ok t

end Engine

/-! ### elaboration -/

/-- `TypedExpr<IntType>` (src/numeric/elaborator.rs:231-243), with `TypedBinOp`, `TypedUnaryOp` and `TypedCast`
(src/numeric/elaborator.rs:437-513) in place: their signatures are kept. -/
inductive TypedExpr where
  | const (t : MachineRep) (c : TypedConst)
  | binOp (t : MachineRep) (sig : (MachineRep × MachineRep) × MachineRep) (op : Num.BasicBinOp)
      (outRep : Option MachineRep) (lhs rhs : TypedExpr)
  | unaryOp (t : MachineRep) (sig : MachineRep × MachineRep) (op : Num.BasicUnaryOp)
      (outRep : Option MachineRep) (inner : TypedExpr)
  | cast (t : MachineRep) (sig : MachineRep × MachineRep) (outRep : MachineRep) (bitwise : Bool)
      (inner : TypedExpr)
  | numVar (t : MachineRep) (name : String)
deriving DecidableEq, Repr

namespace TypedExpr

/-- `TypedExpr::get_type` (src/numeric/elaborator.rs:284-292). -/
def getType : TypedExpr → MachineRep
  | .const t _ => t
  | .binOp t _ _ _ _ _ => t
  | .unaryOp t _ _ _ _ => t
  | .cast t _ _ _ _ => t
  | .numVar t _ => t

/-- `From<TypedExpr> for Expr` (src/numeric/elaborator.rs:338-352). -/
def toExpr : TypedExpr → Num.Expr
  | .const _ c => .const c
  | .binOp _ _ op o l r => .binOp op o l.toExpr r.toExpr
  | .unaryOp _ _ op o e => .unaryOp op o e.toExpr
  | .cast _ _ o b e => .cast o b e.toExpr
  | .numVar _ l => .numVar l

end TypedExpr

/-- `Elaborator::get_type_from_index` (src/numeric/elaborator.rs:567-573); the error is the index. -/
def typeFromIndex (fuel : Nat) (g : Engine) (index : Nat) : Outcome Nat MachineRep :=
  match g.reifyErr fuel (.var index) with
  | .ok t => .ok t
  | .err _ => .err index
  | .panic => .panic
  | .fuel => .fuel

/-- `Elaborator::elaborate_expr` (src/numeric/elaborator.rs:632-681): the tree and the next index. -/
def elaborateExpr (fuel : Nat) (g : Engine) : Num.Expr → Nat → Outcome Nat (TypedExpr × Nat)
  | .const c, index => do
    let t ← typeFromIndex fuel g index
    .ok (.const t c, index + 1)
  | .binOp op o x y, index => do
    let tx ← elaborateExpr fuel g x (index + 1)
    let ty ← elaborateExpr fuel g y tx.2
    let t ← typeFromIndex fuel g index
    .ok (.binOp t ((tx.1.getType, ty.1.getType), t) op o tx.1 ty.1, ty.2)
  | .unaryOp op o x, index => do
    let tx ← elaborateExpr fuel g x (index + 1)
    let t ← typeFromIndex fuel g index
    .ok (.unaryOp t (tx.1.getType, t) op o tx.1, tx.2)
  | .cast o b x, index => do
    let tx ← elaborateExpr fuel g x (index + 1)
    let t ← typeFromIndex fuel g index
    .ok (.cast t (tx.1.getType, t) o b tx.1, tx.2)
  | .numVar l, index => do
    let t ← typeFromIndex fuel g index
    .ok (.numVar t l, index + 1)

/-- errors of inference and of elaboration -/
inductive ElabError where
  | inference (e : InferenceError)
  | badReification (index : Nat)
deriving DecidableEq, Repr

/-- A new engine infers an expression, and a new elaborator on it elaborates the expression
(src/numeric/printer.rs:317-324). -/
def elaborate (fuel : Nat) (e : Num.Expr) : Outcome ElabError TypedExpr :=
  match Engine.new.inferVarExpr fuel e with
  | .ok r =>
    match elaborateExpr fuel r.2 e 0 with
    | .ok t => .ok t.1
    | .err ix => .err (.badReification ix)
    | .panic => .panic
    | .fuel => .fuel
  | .err x => .err (.inference x)
  | .panic => .panic
  | .fuel => .fuel

end Tc
end Doodle
