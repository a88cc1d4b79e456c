import Verif.Spec.TypeSound
import Verif.Spec.Grammar

/-!
Specification vocabulary for the type soundness of formats: modules built by definitions, and the side
conditions under which format type inference is sound.
-/

namespace Doodle

/-- Modules built from the empty one by defining formats one after the other, with the types recorded for
the items. -/
inductive Module.Defined : Module → List ItemTypes → Prop
  | empty : Defined .empty []
  | define {m tys args views f m' tys'} : Defined m tys → m.define tys args views f = .ok (m', tys') →
      Defined m' tys'

/-- The arguments of a call satisfy the side conditions of expressions, and are no more specific than the
declared types (inference unifies them with the declared types and discards the result). -/
def Expr.KeptArgs (σ : Slack) (Γ : TypeScope) : List ValueType → List Expr → Prop
  | ta :: tas, e :: es =>
    e.Kept σ Γ ∧ (∀ t, e.inferType Γ = .ok t → t.Le ta) ∧ Expr.KeptArgs σ Γ tas es
  | _, _ => True

/-- The body of a function satisfies the side conditions when the parameter has type `t`. -/
def Expr.KeptFn (σ : Slack) (Γ : TypeScope) (t : ValueType) : Expr → Prop
  | .lambda x body => body.Kept σ ((x, .value t) :: Γ)
  | _ => True

mutual
/-- The side conditions of format type soundness, checked at every sub-format in the scope in which
inference visits it:
* expressions whose value matters satisfy theirs (`Expr.Kept`), and arguments of calls are no more
  specific than declared;
* fallback values occur only if accepted at their type;
* `Pos` occurs only directly below `Map` or `LetFormat`, where what follows is typed at least as well
  when the position has the type `U64` it has at run time (inference takes it as an open numeric type);
* the accumulator of `AccumUntil` is no more specific than its annotation, and its update function is
  typed without the parameter of the termination function in scope (at run time it is not). -/
def Format.Kept (σ : Slack) (m : Module) (tys : List ItemTypes) : Format → TypeScope → Prop
  | .itemVar level args _, Γ => ∀ ty, tys[level]? = some ty → Expr.KeptArgs σ Γ ty.args args
  | .fail, _ => True
  | .endOfInput, _ => True
  | .align _, _ => True
  | .byte _, _ => True
  | .variant _ f, Γ => f.Kept σ m tys Γ
  | .union fs, Γ => Format.KeptList σ m tys fs Γ
  | .unionNondet fs, Γ => Format.KeptList σ m tys fs Γ
  | .tuple fs, Γ => Format.KeptList σ m tys fs Γ
  | .sequence fs, Γ => Format.KeptList σ m tys fs Γ
  | .repeat_ f, Γ => f.Kept σ m tys Γ
  | .repeat1 f, Γ => f.Kept σ m tys Γ
  | .repeatCount _ f, Γ => f.Kept σ m tys Γ
  | .repeatBetween _ _ f, Γ => f.Kept σ m tys Γ
  | .repeatUntilLast _ f, Γ => f.Kept σ m tys Γ
  | .repeatUntilSeq _ f, Γ => f.Kept σ m tys Γ
  | .accumUntil _ update init ty f, Γ =>
    f.Kept σ m tys Γ ∧ init.Kept σ Γ ∧ ty.WF ∧ (∀ t0, init.inferType Γ = .ok t0 → t0.Le ty) ∧
    match update with
    | .lambda head body => ∀ t, f.inferType m tys Γ = .ok t →
        body.Kept σ ((head, .value (.tuple [ty, t])) :: Γ) ∧
        ∃ tu, body.inferType ((head, .value (.tuple [ty, t])) :: Γ) = .ok tu ∧ tu.Le ty
    | _ => True
  | .forEach e label f, Γ =>
    e.Kept σ Γ ∧ ∀ t, e.inferType Γ = .ok (.seq t) → f.Kept σ m tys ((label, .value t) :: Γ)
  | .maybe _ f, Γ => f.Kept σ m tys Γ
  | .peek f, Γ => f.Kept σ m tys Γ
  | .peekNot _, _ => True
  | .slice _ f, Γ => f.Kept σ m tys Γ
  | .bits f, Γ => f.Kept σ m tys Γ
  | .withRelativeOffset _ _ f, Γ => f.Kept σ m tys Γ
  | .map f e, Γ =>
    match f with
    | .pos =>
      match e with
      | .lambda x body => body.Kept σ ((x, .value (.u .b64)) :: Γ) ∧
          ∀ t, body.inferType ((x, .value .numericHole) :: Γ) = .ok t →
            t.WF ∧ ∃ t', body.inferType ((x, .value (.u .b64)) :: Γ) = .ok t' ∧ t'.Le t
      | _ => True
    | _ => f.Kept σ m tys Γ ∧ ∀ t, f.inferType m tys Γ = .ok t → Expr.KeptFn σ Γ t e
  | .where_ f _ _, Γ => f.Kept σ m tys Γ
  | .compute e, Γ => e.Kept σ Γ
  | .let_ name e f, Γ =>
    e.Kept σ Γ ∧ ∀ t, e.inferType Γ = .ok t → f.Kept σ m tys ((name, .value t) :: Γ)
  | .match_ head branches, Γ =>
    head.Kept σ Γ ∧ ∀ th, head.inferType Γ = .ok th → Format.KeptBranches σ m tys branches Γ th
  | .dynamic name _ _ f, Γ => f.Kept σ m tys ((name, .format (.u .b16)) :: Γ)
  | .apply _, _ => True
  | .pos, _ => False
  | .skipRemainder, _ => True
  | .decodeBytes _ f, Γ => f.Kept σ m tys Γ
  | .letFormat f name g, Γ =>
    match f with
    | .pos =>
      g.Kept σ m tys ((name, .value (.u .b64)) :: Γ) ∧
      ∀ t, g.inferType m tys ((name, .value .numericHole) :: Γ) = .ok t →
        t.WF ∧ ∃ t', g.inferType m tys ((name, .value (.u .b64)) :: Γ) = .ok t' ∧ t'.Le t
    | _ => f.Kept σ m tys Γ ∧
      ∀ t, f.inferType m tys Γ = .ok t → g.Kept σ m tys ((name, .value t) :: Γ)
  | .monadSeq _ g, Γ => g.Kept σ m tys Γ
  | .hint f, Γ => f.Kept σ m tys Γ
  | .liftedNone, _ => True
  | .liftedSome f, Γ => f.Kept σ m tys Γ
  | .letView name f, Γ => f.Kept σ m tys ((name, .view) :: Γ)
  | .captureBytes _ _, _ => True
  | .readArray _ _ _, _ => True
  | .reifyView _, _ => True
  | .parseFromView _ f, Γ => f.Kept σ m tys Γ
  | .phantom f, Γ => f.Kept σ m tys Γ
  | .enforce f, Γ => f.Kept σ m tys Γ
  | .permit f e, Γ => σ.fallbacks ≠ .none ∧ f.Kept σ m tys Γ ∧ e.Kept σ Γ

/-- every element -/
def Format.KeptList (σ : Slack) (m : Module) (tys : List ItemTypes) : List Format → TypeScope → Prop
  | [], _ => True
  | f :: fs, Γ => f.Kept σ m tys Γ ∧ Format.KeptList σ m tys fs Γ

/-- every branch, in the scope of its pattern -/
def Format.KeptBranches (σ : Slack) (m : Module) (tys : List ItemTypes) :
    List (Pattern × Format) → TypeScope → ValueType → Prop
  | [], _, _ => True
  | (p, f) :: rest, Γ, th =>
    (∀ Γ', p.buildScope Γ th = .ok Γ' → f.Kept σ m tys Γ') ∧ Format.KeptBranches σ m tys rest Γ th
end

/-- The side conditions hold for all items of a module, and the declared types are well-formed. -/
def Module.Kept (σ : Slack) (m : Module) (tys : List ItemTypes) : Prop :=
  ∀ (level : Nat) (it : Item) (ty : ItemTypes), m.items[level]? = some it → tys[level]? = some ty →
    ValueType.WFList ty.args ∧ it.format.Kept σ m tys (TypeScope.ofItem (it.args.zip ty.args) it.views)

mutual
/-- Side conditions of type soundness that can be read off the format alone: the expressions whose value
matters are plain, declared types of called items are rigid (no holes and no unions, so that unification
cannot change them), no fallback values unless accepted, and no `Pos` or `AccumUntil`. -/
def Format.TypePlain (σ : Slack) (tys : List ItemTypes) : Format → Prop
  | .itemVar level args _ =>
    Expr.PlainList σ args ∧ ∀ ty, tys[level]? = some ty → ValueType.RigidList ty.args
  | .fail => True
  | .endOfInput => True
  | .align _ => True
  | .byte _ => True
  | .peekNot _ => True
  | .apply _ => True
  | .skipRemainder => True
  | .liftedNone => True
  | .captureBytes _ _ => True
  | .readArray _ _ _ => True
  | .reifyView _ => True
  | .pos => False
  | .accumUntil _ _ _ _ _ => False
  | .variant _ f => f.TypePlain σ tys
  | .repeat_ f => f.TypePlain σ tys
  | .repeat1 f => f.TypePlain σ tys
  | .repeatCount _ f => f.TypePlain σ tys
  | .repeatBetween _ _ f => f.TypePlain σ tys
  | .repeatUntilLast _ f => f.TypePlain σ tys
  | .repeatUntilSeq _ f => f.TypePlain σ tys
  | .maybe _ f => f.TypePlain σ tys
  | .peek f => f.TypePlain σ tys
  | .slice _ f => f.TypePlain σ tys
  | .bits f => f.TypePlain σ tys
  | .withRelativeOffset _ _ f => f.TypePlain σ tys
  | .where_ f _ _ => f.TypePlain σ tys
  | .dynamic _ _ _ f => f.TypePlain σ tys
  | .decodeBytes _ f => f.TypePlain σ tys
  | .hint f => f.TypePlain σ tys
  | .liftedSome f => f.TypePlain σ tys
  | .letView _ f => f.TypePlain σ tys
  | .parseFromView _ f => f.TypePlain σ tys
  | .phantom f => f.TypePlain σ tys
  | .enforce f => f.TypePlain σ tys
  | .union fs => Format.TypePlainList σ tys fs
  | .unionNondet fs => Format.TypePlainList σ tys fs
  | .tuple fs => Format.TypePlainList σ tys fs
  | .sequence fs => Format.TypePlainList σ tys fs
  | .forEach e _ f => e.Plain σ ∧ f.TypePlain σ tys
  | .map f e => f.TypePlain σ tys ∧ e.Plain σ
  | .compute e => e.Plain σ
  | .let_ _ e f => e.Plain σ ∧ f.TypePlain σ tys
  | .match_ head bs => head.Plain σ ∧ Format.TypePlainBranches σ tys bs
  | .letFormat f _ g => f.TypePlain σ tys ∧ g.TypePlain σ tys
  | .monadSeq _ g => g.TypePlain σ tys
  | .permit f e => σ.fallbacks ≠ .none ∧ f.TypePlain σ tys ∧ e.Plain σ

def Format.TypePlainList (σ : Slack) (tys : List ItemTypes) : List Format → Prop
  | [] => True
  | f :: fs => f.TypePlain σ tys ∧ Format.TypePlainList σ tys fs

def Format.TypePlainBranches (σ : Slack) (tys : List ItemTypes) : List (Pattern × Format) → Prop
  | [] => True
  | (_, f) :: bs => f.TypePlain σ tys ∧ Format.TypePlainBranches σ tys bs
end

/-- All items are plain, with rigid declared types. -/
def Module.TypePlain (σ : Slack) (m : Module) (tys : List ItemTypes) : Prop :=
  (∀ (level : Nat) (it : Item), m.items[level]? = some it → it.format.TypePlain σ tys) ∧
  ∀ (level : Nat) (ty : ItemTypes), tys[level]? = some ty → ValueType.RigidList ty.args

end Doodle
