import Verif.Spec.TypeCheck
import Verif.Spec.Grammar
import Verif.Model.TypeCheckFormat

/-!
Specification vocabulary for the type checker on formats: the formats about which its verdict can be relied on.
-/

namespace Doodle

/-- every offset inside the view is solid -/
def ViewExpr.Solid : ViewExpr → Prop
  | .var _ => True
  | .offset base e => base.Solid ∧ e.Solid

/-- every view -/
def ViewExpr.SolidList : List ViewExpr → Prop
  | [] => True
  | x :: xs => x.Solid ∧ ViewExpr.SolidList xs

mutual
/-- Every type annotation inside the format is solid, it contains neither `Fail` nor an empty set of bytes (whose
type the type checker matches with every type), and every call is to an item in `S`, with as many arguments as the
item has parameters. -/
def Format.Solid (m : Module) (S : Nat → Prop) : Format → Prop
  | .itemVar l args views => S l ∧ (∀ it, m.items[l]? = some it → args.length = it.args.length) ∧
      Expr.SolidList args ∧ ViewExpr.SolidList views
  | .fail => False
  | .endOfInput => True
  | .align _ => True
  | .byte bs => bs.isEmpty = false
  | .variant _ f => f.Solid m S
  | .union fs => Format.SolidList m S fs
  | .unionNondet fs => Format.SolidList m S fs
  | .tuple fs => Format.SolidList m S fs
  | .sequence fs => Format.SolidList m S fs
  | .repeat_ f => f.Solid m S
  | .repeat1 f => f.Solid m S
  | .repeatCount e f => e.Solid ∧ f.Solid m S
  | .repeatBetween x y f => x.Solid ∧ y.Solid ∧ f.Solid m S
  | .repeatUntilLast e f => e.Solid ∧ f.Solid m S
  | .repeatUntilSeq e f => e.Solid ∧ f.Solid m S
  | .accumUntil d u i ty f => d.Solid ∧ u.Solid ∧ i.Solid ∧ ty.Solid ∧ f.Solid m S
  | .forEach e _ f => e.Solid ∧ f.Solid m S
  | .maybe e f => e.Solid ∧ f.Solid m S
  | .peek f => f.Solid m S
  | .peekNot f => f.Solid m S
  | .slice e f => e.Solid ∧ f.Solid m S
  | .bits f => f.Solid m S
  | .withRelativeOffset x y f => x.Solid ∧ y.Solid ∧ f.Solid m S
  | .map f e => f.Solid m S ∧ e.Solid
  | .where_ f e _ => f.Solid m S ∧ e.Solid
  | .compute e => e.Solid
  | .let_ _ e f => e.Solid ∧ f.Solid m S
  | .match_ e bs => e.Solid ∧ Format.SolidCases m S bs
  | .dynamic _ ls vs f => ls.Solid ∧ (∀ e, vs = some e → e.Solid) ∧ f.Solid m S
  | .apply _ => True
  | .pos => True
  | .skipRemainder => True
  | .decodeBytes e f => e.Solid ∧ f.Solid m S
  | .letFormat f _ g => f.Solid m S ∧ g.Solid m S
  | .monadSeq f g => f.Solid m S ∧ g.Solid m S
  | .hint f => f.Solid m S
  | .liftedNone => True
  | .liftedSome f => f.Solid m S
  | .letView _ f => f.Solid m S
  | .captureBytes v len => v.Solid ∧ len.Solid
  | .readArray v len _ => v.Solid ∧ len.Solid
  | .reifyView v => v.Solid
  | .parseFromView v f => v.Solid ∧ f.Solid m S
  | .phantom f => f.Solid m S
  | .enforce f => f.Solid m S
  | .permit f e => f.Solid m S ∧ e.Solid
/-- every format -/
def Format.SolidList (m : Module) (S : Nat → Prop) : List Format → Prop
  | [] => True
  | f :: fs => f.Solid m S ∧ Format.SolidList m S fs
/-- every branch -/
def Format.SolidCases (m : Module) (S : Nat → Prop) : List (Pattern × Format) → Prop
  | [] => True
  | (_, f) :: bs => f.Solid m S ∧ Format.SolidCases m S bs
end

mutual
/-- The formats whose values have the type the type checker finds.  What only decides whether or where something is
parsed (counts, sizes, offsets, conditions, lookahead, the first half of a sequence whose value is dropped) is
arbitrary.  Otherwise the expressions are `Exact`, calls are to items in `E`, and:
* no `Pos` and no `Apply`: their values are a `U64` and a `U16`, whatever the type checker chose;
* `Permit` only if the values of its fallback are accepted. -/
def Format.Exact (K : Slack) (E : Nat → Prop) : Format → Prop
  | .itemVar l args _ => E l ∧ Expr.ExactList K args
  | .fail => True
  | .endOfInput => True
  | .align _ => True
  | .byte _ => True
  | .variant _ f => f.Exact K E
  | .union fs => Format.ExactList K E fs
  | .unionNondet fs => Format.ExactList K E fs
  | .tuple fs => Format.ExactList K E fs
  | .sequence fs => Format.ExactList K E fs
  | .repeat_ f => f.Exact K E
  | .repeat1 f => f.Exact K E
  | .repeatCount _ f => f.Exact K E
  | .repeatBetween _ _ f => f.Exact K E
  | .repeatUntilLast _ f => f.Exact K E
  | .repeatUntilSeq _ f => f.Exact K E
  | .accumUntil _ u i _ f => u.Exact K ∧ i.Exact K ∧ f.Exact K E
  | .forEach e _ f => e.Exact K ∧ f.Exact K E
  | .maybe _ f => f.Exact K E
  | .peek f => f.Exact K E
  | .peekNot _ => True
  | .slice _ f => f.Exact K E
  | .bits f => f.Exact K E
  | .withRelativeOffset _ _ f => f.Exact K E
  | .map f e => f.Exact K E ∧ e.Exact K
  | .where_ f _ _ => f.Exact K E
  | .compute e => e.Exact K
  | .let_ _ e f => e.Exact K ∧ f.Exact K E
  | .match_ e bs => e.Exact K ∧ Format.ExactCases K E bs
  | .dynamic _ _ _ f => f.Exact K E
  | .apply _ => False
  | .pos => False
  | .skipRemainder => True
  | .decodeBytes _ f => f.Exact K E
  | .letFormat f _ g => f.Exact K E ∧ g.Exact K E
  | .monadSeq _ g => g.Exact K E
  | .hint f => f.Exact K E
  | .liftedNone => True
  | .liftedSome f => f.Exact K E
  | .letView _ f => f.Exact K E
  | .captureBytes _ _ => True
  | .readArray _ _ _ => True
  | .reifyView _ => True
  | .parseFromView _ f => f.Exact K E
  | .phantom _ => True
  | .enforce f => f.Exact K E
  | .permit f e => K.fallbacks ≠ .none ∧ f.Exact K E ∧ e.Exact K
/-- every format -/
def Format.ExactList (K : Slack) (E : Nat → Prop) : List Format → Prop
  | [] => True
  | f :: fs => f.Exact K E ∧ Format.ExactList K E fs
/-- every branch -/
def Format.ExactCases (K : Slack) (E : Nat → Prop) : List (Pattern × Format) → Prop
  | [] => True
  | (_, f) :: bs => f.Exact K E ∧ Format.ExactCases K E bs
end

/-- The items in `S` are solid, and their parameters are annotated with types without unions and without the types
that stand for any type. -/
def Module.SolidOn (m : Module) (ats : List (List ValueType)) (S : Nat → Prop) : Prop :=
  ∀ l it, S l → m.items[l]? = some it → it.format.Solid m S ∧
    ∃ ts, ats[l]? = some ts ∧ ts.length = it.args.length ∧ ValueType.RigidList ts

/-- the items in `E` are exact -/
def Module.ExactOn (m : Module) (K : Slack) (E : Nat → Prop) : Prop :=
  ∀ l it, E l → m.items[l]? = some it → it.format.Exact K E

namespace Tc

mutual
/-- the meta-variable occurs in the type -/
def UType.HasVar (w : Nat) : UType → Prop
  | .hole => False
  | .empty => False
  | .viewObj => False
  | .phantom t => t.HasVar w
  | .var v => w = v
  | .base _ => False
  | .int _ => False
  | .tuple ts => UType.HasVarList w ts
  | .record fs => UType.HasVarFields w fs
  | .seq t _ => t.HasVar w
  | .option t => t.HasVar w
/-- in one of the types -/
def UType.HasVarList (w : Nat) : List UType → Prop
  | [] => False
  | t :: ts => t.HasVar w ∨ UType.HasVarList w ts
/-- in the type of one of the fields -/
def UType.HasVarFields (w : Nat) : List (String × UType) → Prop
  | [] => False
  | (_, t) :: fs => t.HasVar w ∨ UType.HasVarFields w fs
end

/-- the type of `w` is a part of the type of `v`, by what the state records for `v` -/
def Checker.Inside (st : Checker) (w v : Nat) : Prop :=
  match st.known v with
  | .indefinite => False
  | .invariant (.elem _) => False
  | .invariant (.numTree _) => False
  | .invariant (.equiv t) => t.HasVar w
  | .invariant (.proj (.tupleWith m)) => ∃ i, NMap.get i m = some w
  | .invariant (.proj (.recordWith m)) => ∃ l, TMap.get l m = some w
  | .invariant (.proj (.seqOf u)) => w = u
  | .invariant (.proj (.optOf u)) => w = u
  | .variant id => ∃ m l t, st.store id = some m ∧ TMap.get l m = some t ∧ t.HasVar w

/-- No type of the state is infinite, and no set of machine types that is still possible is empty.  (Unification
can leave both behind: `C57_infinite_type_refuted`, `C40_unify_conflict_refuted`.) -/
structure Checker.Sane (st : Checker) : Prop where
  finite : WellFounded st.Inside
  store : ∀ v id, st.known v = .variant id → ∃ m, st.store id = some m
  bases : ∀ v bs, st.known v = .invariant (.elem bs) → ∃ b, bs.contains b = .ok true
  ints : ∀ v is, st.known v = .invariant (.numTree is) → ∃ r, is.contains r = true

end Tc

end Doodle
