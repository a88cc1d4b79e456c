import Verif.Model.Format
import Verif.Model.Outcome

/-!
Model of record formats: their constructors (/repo/src/format.rs:173-260, /repo/src/helper.rs:378-515) and
their flattening (/repo/src/record_fmt.rs).

The `StyleHint` of `Hint` is not part of the model of formats, so every `Hint` is taken for a record hint here.
The code rejects the other hints, so the model accepts more formats than the code.
-/

namespace Doodle

namespace Record

/-- a field of a record format: `None` is an unnamed field; the flag says whether it is kept -/
abbrev Field := Option (String × Bool) × Format

/-- `Format::__chain_record` (src/format.rs:191-223); `remaining` is in order here, and reversed and popped
from the end in the code. -/
def chainRecord : List (String × Expr) → List Field → Format
  | captured, [] => if captured.isEmpty then .compute Expr.unit else .compute (.record captured)
  | captured, (none, f) :: rest => .monadSeq f (chainRecord captured rest)
  | captured, (some (name, isPersist), f) :: rest =>
    .letFormat f name (chainRecord (if isPersist then captured ++ [(name, .var name)] else captured) rest)

/-- `Format::record` (src/format.rs:174-189). -/
def record (fields : List (String × Format)) : Format :=
  .hint (chainRecord [] (fields.map fun p => (some (p.1, true), p.2)))

/-- `record_ext` (src/helper.rs:500-515). -/
def recordExt (fields : List Field) : Format := .hint (chainRecord [] fields)

/-- the labels of `record_auto` (src/helper.rs:457-467); `trim_start_matches("#")` drops every leading `#` -/
def autoLabel (l : String) : Option (String × Bool) :=
  match l.toList with
  | '#' :: cs => some (String.ofList (cs.dropWhile (· == '#')), true)
  | '_' :: '_' :: _ => none
  | '_' :: _ => some (l, false)
  | _ => some (l, true)

/-- `record_auto` (src/helper.rs:454-469). -/
def recordAuto (fields : List (String × Format)) : Format :=
  recordExt (fields.map fun p => (autoLabel p.1, p.2))

/-- `Format::__chain_format` (src/format.rs:233-258), `Format::chaining` (src/format.rs:225-231). -/
def chaining : List (Option String × Format) → Format → Format
  | [], ret => ret
  | (none, f) :: rest, ret => .monadSeq f (chaining rest ret)
  | (some name, f) :: rest, ret => .letFormat f name (chaining rest ret)

/-- `FieldLabel` (src/record_fmt.rs:6-13). -/
inductive FieldLabel where
  | anonymous
  | ephemeral (name : String)
  | permanent (inCapture inValue : String)
deriving DecidableEq, Repr

/-- `FieldLabel::to_option` (src/record_fmt.rs:56-62). -/
def FieldLabel.toOption : FieldLabel → Option (String × Bool)
  | .anonymous => none
  | .ephemeral name => some (name, false)
  | .permanent _ inValue => some (inValue, true)

/-- `RecordFormat`, `OwnedRecordFormat` (src/record_fmt.rs:65-73). -/
abbrev Flat := List (FieldLabel × Format)

/-- `RecordBuilder` (src/record_fmt.rs:166-170). -/
structure Builder where
  labels : List (Option String)
  formats : List Format
  res : Option (List (String × Expr))

/-- `RecordBuilder::init` (src/record_fmt.rs:173-179). -/
def Builder.init : Builder := ⟨[], [], none⟩

/-- `RecordBuilder::accum` (src/record_fmt.rs:205-211), with `step` (src/record_fmt.rs:181-203) in place. -/
def Builder.accum (b : Builder) : Format → Outcome Unit Builder
  | .hint inner => b.accum inner
  | .letFormat f name inner => Builder.accum ⟨b.labels ++ [some name], b.formats ++ [f], b.res⟩ inner
  | .monadSeq f inner => Builder.accum ⟨b.labels ++ [none], b.formats ++ [f], b.res⟩ inner
  | .compute e =>
    match e with
    | .record res => if b.res.isNone then .ok { b with res := some res } else .panic
    | _ => .err ()
  | _ => .err ()

/-- the first loop of `finish`, giving the `BTreeMap` from variables to record labels
(src/record_fmt.rs:215-223); later entries come first here -/
def keptLoop : List (String × Expr) → List (String × String) → Panicky (List (String × String))
  | [], kept => .ok kept
  | (lab, .var x) :: rest, kept => keptLoop rest ((x, lab) :: kept)
  | _ :: _, _ => .panic

/-- `BTreeMap::get` on that map -/
def keptGet (x : String) : List (String × String) → Option String
  | [] => none
  | (y, lab) :: rest => if y = x then some lab else keptGet x rest

/-- the label made for one field (src/record_fmt.rs:225-237) -/
def fieldLabel (kept : List (String × String)) : Option String → FieldLabel
  | none => .anonymous
  | some x =>
    match keptGet x kept with
    | some lab => .permanent x lab
    | none => .ephemeral x

/-- `RecordBuilder::finish` (src/record_fmt.rs:213-241). -/
def Builder.finish (b : Builder) : Panicky Flat := do
  let res ← Panicky.unwrap b.res
  let kept ← keptLoop res []
  .ok ((b.labels.zip b.formats).map fun p => (fieldLabel kept p.1, p.2))

/-- `RecordFormat::try_from` (src/record_fmt.rs:117-125). -/
def flatten (f : Format) : Outcome Unit Flat := do
  let b ← Builder.init.accum f
  Outcome.ofPanicky b.finish

/-- `OwnedRecordFormat::into_format` (src/record_fmt.rs:146-163). -/
def intoFormat (flat : Flat) : Format :=
  .hint (chainRecord [] (flat.map fun p => (p.1.toOption, p.2)))

/-- `RecordFormat::lookup_value_field` (src/record_fmt.rs:129-142). -/
def lookupValueField (name : String) : Flat → Option (Format × String)
  | [] => none
  | (.permanent inCapture inValue, f) :: rest =>
    if inValue = name then some (f, inCapture) else lookupValueField name rest
  | _ :: rest => lookupValueField name rest

/-- the loop of `merge_records` (src/helper.rs:387-392); the `unwrap` of an error is the panic -/
def mergeLoop : List Format → Flat → Panicky Flat
  | [], combined => .ok combined
  | r :: rest, combined =>
    match flatten r with
    | .ok flat => mergeLoop rest (combined ++ flat)
    | _ => .panic

/-- `merge_records` (src/helper.rs:385-394). -/
def mergeRecords (records : List Format) : Panicky Format := do
  let combined ← mergeLoop records []
  .ok (intoFormat combined)

/-- `remap_field` (src/helper.rs:399-419). -/
def remapField (name : String) (remap : Format → Format) : Format → Format
  | .letFormat f ident inner =>
    if ident = name then .letFormat (remap f) ident inner
    else .letFormat f ident (remapField name remap inner)
  | .monadSeq f0 f1 => .monadSeq f0 (remapField name remap f1)
  | .hint f => .hint (remapField name remap f)
  | f => f

end Record
end Doodle
