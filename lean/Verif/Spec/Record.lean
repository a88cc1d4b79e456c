import Verif.Model.Record
import Verif.Model.Compile

/-! What a record is, independently of how record formats are made. -/

namespace Doodle
namespace Record

/-- Some run of the decoder returns `w`. -/
def Yields (env : Env) (d : Decoder) (s : Scope Decoder) (c : ReadCtxt) (w : Parsed) : Prop :=
  ∃ fuel, Decoder.parse env fuel d s c = .ok w

/-- Some run of the decoder fails with `e`. -/
def Fails (env : Env) (d : Decoder) (s : Scope Decoder) (c : ReadCtxt) (e : DecodeErr) : Prop :=
  ∃ fuel, Decoder.parse env fuel d s c = .err e

/-- the label of a field: none, or a name and whether the field is kept -/
abbrev Lab := Option (String × Bool)

/-- the scope after a field: a named field is bound to its value -/
def bindField (l : Lab) (v : Value) (s : Scope Decoder) : Scope Decoder :=
  match l with
  | none => s
  | some p => .single p.1 v s

/-- The decoders of the fields run left to right on one input, each in the scope of the fields before it:
the values of all the fields, the rest of the input, and the tolerated errors, latest first. -/
inductive FieldsRun (env : Env) :
    List (Lab × Decoder) → Scope Decoder → ReadCtxt → List Value → ReadCtxt → List DecodeErr → Prop
  | nil {s c} : FieldsRun env [] s c [] c []
  | cons {l d ps s c v c' errs vs c'' errs'} : Yields env d s c ⟨(v, c'), errs⟩ →
      FieldsRun env ps (bindField l v s) c' vs c'' errs' →
      FieldsRun env ((l, d) :: ps) s c (v :: vs) c'' (errs' ++ errs)

/-- A field fails after the fields before it have run. -/
inductive FieldsFail (env : Env) : List (Lab × Decoder) → Scope Decoder → ReadCtxt → DecodeErr → Prop
  | here {l d ps s c e} : Fails env d s c e → FieldsFail env ((l, d) :: ps) s c e
  | later {l d ps s c v c' errs e} : Yields env d s c ⟨(v, c'), errs⟩ →
      FieldsFail env ps (bindField l v s) c' e → FieldsFail env ((l, d) :: ps) s c e

/-- the scope after all the fields -/
def bindAll : List Lab → List Value → Scope Decoder → Scope Decoder
  | l :: ls, v :: vs, s => bindAll ls vs (bindField l v s)
  | _, _, s => s

/-- a step of a chain as a field that is not kept -/
def step (p : Option String × Format) : Field := (p.1.map fun x => (x, false), p.2)

/-- the kept fields, in order, with the values given for all the fields -/
def kept : List Lab → List Value → List (String × Value)
  | some (x, true) :: ls, v :: vs => (x, v) :: kept ls vs
  | _ :: ls, _ :: vs => kept ls vs
  | _, _ => []

/-- the names of the kept fields, in order -/
def keptNames : List Lab → List String
  | [] => []
  | some (x, true) :: ls => x :: keptNames ls
  | _ :: ls => keptNames ls

/-- the value of a record; a record without fields is the unit value -/
def recordValue (fs : List (String × Value)) : Value :=
  match fs with
  | [] => .tuple []
  | _ :: _ => .record fs

/-- the value of the last field of this name -/
def lastNamed (x : String) : List Lab → List Value → Option Value
  | l :: ls, v :: vs => (lastNamed x ls vs).or (if l.map (·.1) = some x then some v else none)
  | _, _ => none

/-- No field has the name of a kept field before it. -/
def NoRebind : List Lab → Prop
  | [] => True
  | l :: ls => NoRebind ls ∧ ∀ x, l = some (x, true) → ∀ b, some (x, b) ∉ ls

/-- No name is used both by a kept field and by one that is not kept. -/
def NoClash (ls : List Lab) : Prop := ∀ x, some (x, true) ∈ ls → some (x, false) ∉ ls

/-- The parts are the fields, each with a decoder that the compiler makes for its format. -/
def CompiledFrom [DecidableEq Next] (m : Module) (o : BuildOpts) :
    List Field → List (Lab × Decoder) → Prop
  | [], [] => True
  | f :: fs, p :: ps => p.1 = f.1 ∧
      (∃ (next : Next) (st st' : CompSt), compileFormat m o f.2 next st = .ok (p.2, st')) ∧ CompiledFrom m o fs ps
  | _, _ => False

/-- A record-shaped format: fields one after the other, named or not, and at the end the record of the
names of the kept fields, in order, with record hints anywhere.  `before` are the names kept so far. -/
inductive Shaped : List String → List Field → Format → Prop
  | done {before} : before ≠ [] → Shaped before [] (.compute (.record (before.map fun x => (x, .var x))))
  | hint {before fs g} : Shaped before fs g → Shaped before fs (.hint g)
  | unnamed {before f fs g} : Shaped before fs g → Shaped before ((none, f) :: fs) (.monadSeq f g)
  | temporary {before f x fs g} : Shaped before fs g →
      Shaped before ((some (x, false), f) :: fs) (.letFormat f x g)
  | permanent {before f x fs g} : Shaped (before ++ [x]) fs g →
      Shaped before ((some (x, true), f) :: fs) (.letFormat f x g)

/-- the flat label of a field whose record label is its name -/
def flatLabel : Lab → FieldLabel
  | none => .anonymous
  | some (x, false) => .ephemeral x
  | some (x, true) => .permanent x x

/-- the first field of the name `x`, kept or not, is changed by `g` -/
def changeFirst (x : String) (g : Format → Format) : List Field → List Field
  | [] => []
  | f :: fs => if f.1.map (·.1) = some x then (f.1, g f.2) :: fs else f :: changeFirst x g fs

end Record
end Doodle
