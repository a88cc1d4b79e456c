import Verif.Model.Value

/-!
Specification vocabulary for C24: which values a pattern describes, and what it binds.
-/

namespace Doodle

/-- the values a `Seq` value stands for -/
def SeqKind.Lists {α : Type} (s : SeqKind α) (l : List α) : Prop :=
  match s with
  | .strict vs => l = vs
  | .dup n v => l.length = n ∧ ∀ x ∈ l, x = v

mutual
/-- `Describes p v bs`: `v` has the shape of `p`, and `bs` are the bindings, left to right. -/
inductive Describes : Pattern → Value → List (String × Value) → Prop where
  | binding (n v) : Describes (.binding n) v [(n, v)]
  | wildcard (v) : Describes .wildcard v []
  | bool (b) : Describes (.bool b) (.bool b) []
  | char (c) : Describes (.char c) (.char c) []
  | lit (w n) : Describes (.lit w n) (.num (.fixed w) n) []
  | litNumeric (w n) (z : Int) : z = n.val →
      Describes (.lit w n) (.numeric ⟨z, .concrete ⟨false, w⟩⟩) []
  | int (b : Bounds) (k n) : b.min ≤ n.val → (∀ m, b.max = some m → n.val ≤ m) →
      Describes (.int b) (.num k n) []
  | intNumeric (b : Bounds) (c : Num.TypedConst) : (b.min : Int) ≤ c.val → (∀ m, b.max = some m → c.val ≤ (m : Int)) →
      Describes (.int b) (.numeric c) []
  | zConst (z : Int) (v) : v.intVal? = some z → Describes (.zConst z) v []
  | zRange (r : Num.Bounds) (v) (z : Int) : v.intVal? = some z → r.min ≤ z → z ≤ r.max → Describes (.zRange r) v []
  | tuple (ps vs bs) : DescribesAll ps vs bs → Describes (.tuple ps) (.tuple vs) bs
  | seq (ps s l bs) : s.Lists l → DescribesAll ps l bs → Describes (.seq ps) (.seq s) bs
  | variant (label p v bs) : Describes p v bs → Describes (.variant label p) (.variant label v) bs
  | optNone : Describes .optNone .optNone []
  | optSome (p v bs) : Describes p v bs → Describes (.optSome p) (.optSome v) bs

/-- componentwise, same length -/
inductive DescribesAll : List Pattern → List Value → List (String × Value) → Prop where
  | nil : DescribesAll [] [] []
  | cons (p ps v vs b bs) : Describes p v b → DescribesAll ps vs bs →
      DescribesAll (p :: ps) (v :: vs) (b ++ bs)
end

/-- One layer of the wrappers that alternation, mapping and permit put around a value. -/
inductive Wraps : Value → Value → Prop where
  | mapped (o v) : Wraps (.mapped o v) v
  | branch (n v) : Wraps (.branch n v) v
  | permitOk (v) : Wraps (.permitOk v) v
  | permitErr (v) : Wraps (.permitErr v) v

/-- `Unwrapped v w`: `w` is `v` with all its outer wrappers removed. -/
inductive Unwrapped : Value → Value → Prop where
  | done (v) : (∀ w, ¬ Wraps v w) → Unwrapped v v
  | step (v w u) : Wraps v w → Unwrapped w u → Unwrapped v u

mutual
/-- the names a pattern binds, left to right -/
def Pattern.binders : Pattern → List String
  | .binding n => [n]
  | .tuple ps => Pattern.bindersAll ps
  | .seq ps => Pattern.bindersAll ps
  | .variant _ p => p.binders
  | .optSome p => p.binders
  | _ => []
/-- binders of a list of patterns -/
def Pattern.bindersAll : List Pattern → List String
  | [] => []
  | p :: ps => p.binders ++ Pattern.bindersAll ps
end

mutual
/-- `DescribesDeep p v`: like `Describes`, but wrappers are looked through at every nesting level (the
behaviour the property asks for; bindings left out). -/
inductive DescribesDeep : Pattern → Value → Prop where
  | unwrap (p v w) : Wraps v w → DescribesDeep p w → DescribesDeep p v
  | flat (p v) : Describes p v [] → DescribesDeep p v
  | binding (n v) : DescribesDeep (.binding n) v
  | tuple (ps vs) : DescribesDeepAll ps vs → DescribesDeep (.tuple ps) (.tuple vs)
  | seq (ps s l) : s.Lists l → DescribesDeepAll ps l → DescribesDeep (.seq ps) (.seq s)
  | variant (label p v) : DescribesDeep p v → DescribesDeep (.variant label p) (.variant label v)
  | optSome (p v) : DescribesDeep p v → DescribesDeep (.optSome p) (.optSome v)
/-- componentwise -/
inductive DescribesDeepAll : List Pattern → List Value → Prop where
  | nil : DescribesDeepAll [] []
  | cons (p ps v vs) : DescribesDeep p v → DescribesDeepAll ps vs → DescribesDeepAll (p :: ps) (v :: vs)
end

mutual
/-- no wrapper occurs anywhere inside the value -/
def Value.plain : Value → Bool
  | .mapped _ _ => false
  | .branch _ _ => false
  | .permitOk _ => false
  | .permitErr _ => false
  | .optSome v => v.plain
  | .tuple vs => Value.plainAll vs
  | .record fs => Value.plainFields fs
  | .variant _ v => v.plain
  | .seq (.strict vs) => Value.plainAll vs
  | .seq (.dup _ v) => v.plain
  | _ => true
/-- every element is plain -/
def Value.plainAll : List Value → Bool
  | [] => true
  | v :: vs => v.plain && Value.plainAll vs
/-- every field is plain -/
def Value.plainFields : List (String × Value) → Bool
  | [] => true
  | (_, v) :: vs => v.plain && Value.plainFields vs
end

end Doodle
