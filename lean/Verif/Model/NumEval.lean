import Verif.Model.NumCore

/-! Model of /repo/src/numeric/eval.rs: the typed arithmetic helpers that generated numeric code calls.
The macros expand to one function per table row; the tables are transcribed row by row, and the macro
bodies are modelled as functions of the row's types.  Machine integers are `Int`s in range. -/

namespace Doodle
namespace Num

/-- `Eval<T>` (src/numeric/eval.rs:27-34).  The lazily computed `BigInt` is its value. -/
inductive Eval where
  | nan
  | direct (n : Int)
  | indirect (n : Int)
deriving DecidableEq, Repr

/-- membership test behind every checked operation and conversion of Rust's primitive integers -/
def MachineRep.inRange (r : MachineRep) (n : Int) : Bool :=
  decide (r.asBounds.min ≤ n) && decide (n ≤ r.asBounds.max)

/-- `checked_add`/`checked_sub`/`checked_mul`/`checked_div`/`checked_rem` of a primitive type
(`num_traits`, standard library semantics): `None` when the result overflows, when dividing by zero and,
for `checked_rem`, also when the quotient overflows. -/
def checkedOp (op : BasicBinOp) (t : MachineRep) (a b : Int) : Option Int :=
  match op with
  | .add => if t.inRange (a + b) then some (a + b) else none
  | .sub => if t.inRange (a - b) then some (a - b) else none
  | .mul => if t.inRange (a * b) then some (a * b) else none
  | .div => if b = 0 then none else if t.inRange (a.tdiv b) then some (a.tdiv b) else none
  | .rem => if b = 0 then none else if t.inRange (a.tdiv b) then some (a.tmod b) else none

/-- the same methods on `BigInt` (num-bigint) -/
def bigCheckedOp (op : BasicBinOp) (a b : Int) : Option Int :=
  match op with
  | .add => some (a + b)
  | .sub => some (a - b)
  | .mul => some (a * b)
  | .div => if b = 0 then none else some (a.tdiv b)
  | .rem => if b = 0 then none else some (a.tmod b)

/-- body shared by `homogenous!`, `widening!` and `mixed_widening!` (src/numeric/eval.rs:98-120, 140-155,
175-190): convert both operands with `as`, do the checked operation, fall back on `BigInt`.  In
`homogenous!` there is no cast, which is `as` to the same type.  The `unwrap` of the `BigInt` operation
is the panic. -/
def evalBin (op : BasicBinOp) (out : MachineRep) (l r : Int) : Panicky Eval :=
  match checkedOp op out (rustAs out l) (rustAs out r) with
  | some res => .ok (.direct res)
  | none =>
    match bigCheckedOp op l r with
    | some n => .ok (.indirect n)
    | none => .panic

/-- body shared by `homogenous_quotient!`, `widening_quotient!` and `mixed_widening_quotient!`
(src/numeric/eval.rs:124-136, 157-172, 192-207) -/
def evalQuot (op : BasicBinOp) (out : MachineRep) (l r : Int) : Eval :=
  match checkedOp op out (rustAs out l) (rustAs out r) with
  | some res => .direct res
  | none => .nan

/-- `eval_fallback` (src/numeric/eval.rs:540-568), applied to a `BigInt` checked operation. -/
def evalFallback (op : BasicBinOp) (out : MachineRep) (l r : Int) : Eval :=
  match bigCheckedOp op l r with
  | some n => if out.inRange n then .direct n else .indirect n
  | none => .nan

/-- rows of `homogenous!` and `homogenous_quotient!` (src/numeric/eval.rs:212-264) -/
def homogenousTable : List (MachineRep × MachineRep × MachineRep) :=
  [(U8, U8, U8), (U16, U16, U16), (U32, U32, U32), (U64, U64, U64), (I8, I8, I8), (I16, I16, I16),
  (I32, I32, I32), (I64, I64, I64)]

/-- rows of `widening!` and `widening_quotient!` (src/numeric/eval.rs:270-313): the five operations have the same rows -/
def wideningTable : List (MachineRep × MachineRep × MachineRep) :=
  [(U8, U8, U16), (U8, U8, U32), (U8, U8, U64), (U8, U8, I16), (U8, U8, I32), (U8, U8, I64),
  (U16, U16, U32), (U16, U16, U64), (U16, U16, I32), (U16, U16, I64), (U32, U32, U64), (U32, U32, I64),
  (I8, I8, I16), (I8, I8, I32), (I8, I8, I64), (I16, I16, I32), (I16, I16, I64), (I32, I32, I64)]

/-- rows of `mixed_widening!` and `mixed_widening_quotient!` (src/numeric/eval.rs:317-534): the five operations have the same rows -/
def mixedTable : List (MachineRep × MachineRep × MachineRep) :=
  [(U8, I8, I16), (U8, I8, I32), (U8, I8, I64), (I8, U8, I16), (I8, U8, I32), (I8, U8, I64),
  (U16, U8, U16), (U16, U8, U32), (U16, U8, U64), (U16, U8, I32), (U16, U8, I64), (U8, U16, U16),
  (U8, U16, U32), (U8, U16, U64), (U8, U16, I32), (U8, U16, I64), (U16, I8, I32), (U16, I8, I64),
  (I8, U16, I32), (I8, U16, I64), (I16, U8, I16), (I16, U8, I32), (I16, U8, I64), (U8, I16, I16),
  (U8, I16, I32), (U8, I16, I64), (I16, I8, I16), (I16, I8, I32), (I16, I8, I64), (I8, I16, I16),
  (I8, I16, I32), (I8, I16, I64), (U16, I16, I32), (U16, I16, I64), (I16, U16, I32), (I16, U16, I64),
  (U32, U8, U32), (U32, U8, U64), (U32, U8, I64), (U8, U32, U32), (U8, U32, U64), (U8, U32, I64),
  (U32, I8, I64), (I8, U32, I64), (U32, U16, U32), (U32, U16, U64), (U32, U16, I64), (U16, U32, U32),
  (U16, U32, U64), (U16, U32, I64), (U32, I16, I64), (I16, U32, I64), (I32, U8, I32), (I32, U8, I64),
  (U8, I32, I32), (U8, I32, I64), (I32, I8, I32), (I32, I8, I64), (I8, I32, I32), (I8, I32, I64),
  (I32, U16, I32), (I32, U16, I64), (U16, I32, I32), (U16, I32, I64), (I32, I16, I32), (I32, I16, I64),
  (I16, I32, I32), (I16, I32, I64), (U32, I32, I64), (I32, U32, I64)]

/-- every monomorphic binary helper -/
def binTable : List (MachineRep × MachineRep × MachineRep) := homogenousTable ++ wideningTable ++ mixedTable

/-- native `-x` and `+` of a primitive type: with overflow checks (`dbg`, the default debug profile) an
overflow panics, otherwise it wraps (Rust language semantics). -/
def native (dbg : Bool) (t : MachineRep) (n : Int) : Panicky Int :=
  if t.inRange n then .ok n else if dbg then .panic else .ok (rustAs t n)

/-- `negate_as_signed!`, both rules (src/numeric/eval.rs:576-592). -/
def negAsSigned (dbg : Bool) (out : MachineRep) (x : Int) : Panicky Eval :=
  (native dbg out (-(rustAs out x))).bind fun n => .ok (.direct n)

/-- `negate_into_unsigned!` (src/numeric/eval.rs:599-620). -/
def negIntoUnsigned (dbg : Bool) (t out : MachineRep) (x : Int) : Panicky Eval :=
  if x > 0 then .ok (.indirect (-x))
  else if x = t.asBounds.min then (native dbg out (rustAs out t.asBounds.max + 1)).bind fun n => .ok (.direct n)
  else (native dbg t (-x)).bind fun n => .ok (.direct (rustAs out n))

/-- `negate_unsigned_unsigned!` (src/numeric/eval.rs:623-637). -/
def negUnsigned (x : Int) : Eval := if x = 0 then .direct 0 else .indirect (-x)

/-- `abs_as_signed!`, first rule (src/numeric/eval.rs:640-651). -/
def absSigned (dbg : Bool) (t : MachineRep) (x : Int) : Panicky Eval :=
  (native dbg t x.natAbs).bind fun tmp =>
    if tmp = t.asBounds.min then .ok (.indirect x.natAbs) else .ok (.direct tmp)

/-- `abs_as_signed!`, second rule (src/numeric/eval.rs:652-662). -/
def absAsSigned (dbg : Bool) (out : MachineRep) (x : Int) : Panicky Eval :=
  (native dbg out (rustAs out x).natAbs).bind fun tmp => .ok (.direct tmp)

/-- `abs_signed_unsigned!` (src/numeric/eval.rs:666-681). -/
def absSignedUnsigned (dbg : Bool) (t out : MachineRep) (x : Int) : Panicky Eval :=
  (native dbg t x.natAbs).bind fun tmp =>
    if tmp = t.asBounds.min then (native dbg out (rustAs out t.asBounds.max + 1)).bind fun n => .ok (.direct n)
    else .ok (.direct (rustAs out tmp))

/-- `abs_unsigned_unsigned!`, both rules (src/numeric/eval.rs:684-703). -/
def absUnsigned (out : MachineRep) (x : Int) : Eval := .direct (rustAs out x)

/-- `eval_unary_fallback` (src/numeric/eval.rs:808-831). -/
def evalUnaryFallback (f : Int → Int) (out : MachineRep) (x : Int) : Eval :=
  if out.inRange (f x) then .direct (f x) else .indirect (f x)

/-- `direct_cast!` (src/numeric/eval.rs:836-846). -/
def directCast (out : MachineRep) (x : Int) : Eval := .direct (rustAs out x)

/-- `attempt_cast!` (src/numeric/eval.rs:849-864); `NumCast::from` succeeds iff representable. -/
def attemptCast (out : MachineRep) (x : Int) : Eval := if out.inRange x then .direct x else .indirect x

/-- `negate_as_signed!` type-preserving rows (src/numeric/eval.rs:708-713) -/
def negSameTable : List (MachineRep × MachineRep) :=
  [(I8, I8), (I16, I16), (I32, I32), (I64, I64)]

/-- `negate_as_signed!` widening rows (src/numeric/eval.rs:716-723) -/
def negAsSignedTable : List (MachineRep × MachineRep) :=
  [(U8, I16), (U8, I32), (U8, I64), (U16, I32), (U16, I64), (U32, I64),
  (I8, I16), (I8, I32), (I8, I64), (I16, I32), (I16, I64), (I32, I64)]

/-- `negate_unsigned_unsigned!` rows (src/numeric/eval.rs:726-731) -/
def negUnsignedTable : List (MachineRep × MachineRep) :=
  [(U8, U8), (U8, U16), (U8, U32), (U8, U64), (U16, U8), (U16, U16),
  (U16, U32), (U16, U64), (U32, U8), (U32, U16), (U32, U32), (U32, U64),
  (U64, U8), (U64, U16), (U64, U32), (U64, U64)]

/-- `negate_into_unsigned!` rows (src/numeric/eval.rs:734-739) -/
def negIntoUnsignedTable : List (MachineRep × MachineRep) :=
  [(I8, U8), (I8, U16), (I8, U32), (I8, U64), (I16, U16), (I16, U32),
  (I16, U64), (I32, U32), (I32, U64), (I64, U64)]

/-- `abs_as_signed!` type-preserving rows (src/numeric/eval.rs:756-761) -/
def absSameTable : List (MachineRep × MachineRep) :=
  [(I8, I8), (I16, I16), (I32, I32), (I64, I64)]

/-- `abs_as_signed!` widening rows (src/numeric/eval.rs:764-771) -/
def absAsSignedTable : List (MachineRep × MachineRep) :=
  [(U8, I16), (U8, I32), (U8, I64), (U16, I32), (U16, I64), (U32, I64),
  (I8, I16), (I8, I32), (I8, I64), (I16, I32), (I16, I64), (I32, I64)]

/-- `abs_signed_unsigned!` rows (src/numeric/eval.rs:774-779) -/
def absSignedUnsignedTable : List (MachineRep × MachineRep) :=
  [(I8, U8), (I8, U16), (I8, U32), (I8, U64), (I16, U16), (I16, U32),
  (I16, U64), (I32, U32), (I32, U64), (I64, U64)]

/-- `abs_unsigned_unsigned!` rows (src/numeric/eval.rs:782-794) -/
def absUnsignedTable : List (MachineRep × MachineRep) :=
  [(U8, U8), (U16, U16), (U32, U32), (U64, U64),
  (U8, U16), (U8, U32), (U8, U64), (U16, U32), (U16, U64), (U32, U64)]

/-- `direct_cast!` rows (src/numeric/eval.rs:869-876) -/
def directCastTable : List (MachineRep × MachineRep) :=
  [(U8, U16), (U8, U32), (U8, U64), (U8, I16), (U8, I32), (U8, I64),
  (U16, U32), (U16, U64), (U16, I32), (U16, I64), (U32, U64), (U32, I64),
  (I8, I16), (I8, I32), (I8, I64), (I16, I32), (I16, I64), (I32, I64)]

/-- `attempt_cast!` rows (src/numeric/eval.rs:879-888) -/
def attemptCastTable : List (MachineRep × MachineRep) :=
  [(U8, I8), (U16, U8), (U16, I8), (U16, I16), (U32, U8), (U32, U16),
  (U32, I8), (U32, I16), (U32, I32), (U64, U8), (U64, U16), (U64, U32),
  (U64, I8), (U64, I16), (U64, I32), (U64, I64), (I8, U8), (I8, U16),
  (I8, U32), (I8, U64), (I16, U8), (I16, U16), (I16, U32), (I16, U64),
  (I16, I8), (I32, U8), (I32, U16), (I32, U32), (I32, U64), (I32, I8),
  (I32, I16), (I64, U8), (I64, U16), (I64, U32), (I64, U64), (I64, I8),
  (I64, I16), (I64, I32)]

end Num
end Doodle
