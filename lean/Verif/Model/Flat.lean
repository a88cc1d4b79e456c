import Verif.Model.Record
import Verif.Model.Outcome

/-!
Model of the flat listing of decoded values (/repo/src/output/flat.rs).

A line of the listing is the level of the item it names: `is_show_format` (src/output/flat.rs:20-108),
a fixed table from names of items to titles, is the parameter `shown`.  Hints carry no style in this
model of formats; which hints are record hints is the parameter `record`, asked of the format below the
hint.  Writing does not fail.  Recursion is bounded by a number of levels (`fuel` when it runs out).
-/

namespace Doodle.Flat

/-- the parameters: which items have a title, and which hints are record hints -/
structure Style where
  shown : Nat → Bool
  record : Format → Bool

/-- the loop over the items of a sequence (src/output/flat.rs:292-298, 305-308) -/
def writeEach (w : Value → Format → Outcome Unit (List Nat)) (f : Format) :
    List Value → Outcome Unit (List Nat)
  | [] => .ok []
  | v :: vs => do
    let a ← w v f
    let b ← writeEach w f vs
    .ok (a ++ b)

/-- the loop over values and `formats[index]` (src/output/flat.rs:268-271, 278-281) -/
def writeZip (w : Value → Format → Outcome Unit (List Nat)) :
    List Format → List Value → Outcome Unit (List Nat)
  | _, [] => .ok []
  | f :: fs, v :: vs => do
    let a ← w v f
    let b ← writeZip w fs vs
    .ok (a ++ b)
  | [], _ :: _ => .panic

/-- the loop over the fields of a record (src/output/flat.rs:366-371) -/
def writeFields (w : Value → Format → Outcome Unit (List Nat)) (flat : Record.Flat) :
    List (String × Value) → Outcome Unit (List Nat)
  | [] => .ok []
  | (l, v) :: fs =>
    match Record.lookupValueField l flat with
    | none => .panic
    | some p => do
      let a ← w v p.1
      let b ← writeFields w flat fs
      .ok (a ++ b)

/-- `Context::write_record` (src/output/flat.rs:362-376), with the `unwrap` of
`Format::to_record_format` (src/format.rs:169-171). -/
def writeRecord (w : Value → Format → Outcome Unit (List Nat)) (f : Format) (v : Value) :
    Outcome Unit (List Nat) :=
  match Record.flatten f with
  | .ok flat =>
    match v with
    | .record fs => writeFields w flat fs
    | _ => .panic
  | .err _ => .panic
  | .panic => .panic
  | .fuel => .fuel

/-- `Context::write_flat` (src/output/flat.rs:224-360). -/
def writeFlat (m : Module) (st : Style) : Nat → Value → Format → Outcome Unit (List Nat)
  | 0, _, _ => .fuel
  | fuel + 1, value, format =>
    let w := writeFlat m st fuel
    match format with
    | .itemVar level _ _ =>
      if st.shown level then .ok [level]
      else match m.get level with
        | .ok it => w value it.format
        | .panic => .panic
    | .phantom _ => .ok []
    | .fail => .ok []
    | .endOfInput => .ok []
    | .skipRemainder => .ok []
    | .align _ => .ok []
    | .pos => .ok []
    | .byte _ => .ok []
    | .liftedNone => match value with
      | .optNone => .ok []
      | _ => .panic
    | .liftedSome f => match value with
      | .optSome v => w v f
      | _ => .panic
    | .variant label f => match value with
      | .variant label2 v => if label = label2 then w v f else .panic
      | _ => .panic
    | .union fs => match value with
      | .branch i v => match fs[i]? with
        | some f => w v f
        | none => .panic
      | _ => .panic
    | .unionNondet fs => match value with
      | .branch i v => match fs[i]? with
        | some f => w v f
        | none => .panic
      | _ => .panic
    | .tuple fs => match value with
      | .tuple vs => writeZip w fs vs
      | _ => .panic
    | .sequence fs => match value with
      | .seq s => writeZip w fs s.iter
      | _ => .panic
    | .repeat_ f => match value with
      | .seq s => writeEach w f s.iter
      | _ => .panic
    | .repeat1 f => match value with
      | .seq s => writeEach w f s.iter
      | _ => .panic
    | .forEach _ _ f => match value with
      | .seq s => writeEach w f s.iter
      | _ => .panic
    | .repeatCount _ f => match value with
      | .seq s => writeEach w f s.iter
      | _ => .panic
    | .repeatBetween _ _ f => match value with
      | .seq s => writeEach w f s.iter
      | _ => .panic
    | .repeatUntilLast _ f => match value with
      | .seq s => writeEach w f s.iter
      | _ => .panic
    | .repeatUntilSeq _ f => match value with
      | .seq s => writeEach w f s.iter
      | _ => .panic
    | .accumUntil _ _ _ _ f => match value with
      | .tuple [_, .seq s] => writeEach w f s.iter
      | _ => .panic
    | .maybe _ f => match value with
      | .optSome v => w v f
      | .optNone => .ok []
      | _ => .panic
    | .decodeBytes _ f => w value f
    | .parseFromView _ f => w value f
    | .peek f => w value f
    | .peekNot f => w value f
    | .slice _ f => w value f
    | .bits f => w value f
    | .withRelativeOffset _ _ f => w value f
    | .map _ _ => .ok []
    | .where_ _ _ _ => .ok []
    | .compute _ => .ok []
    | .let_ _ _ f => w value f
    | .letView _ f => w value f
    | .match_ _ branches => match value with
      | .branch i v => match branches[i]? with
        | some b => w v b.2
        | none => .panic
      | _ => .panic
    | .dynamic _ _ _ f => w value f
    | .apply _ => .ok []
    | .letFormat _ _ f => w value f
    | .monadSeq _ f => w value f
    | .hint f => if st.record f then writeRecord w f value else w value f
    | .permit f _ => w value f
    | .enforce f => w value f
    | .captureBytes _ _ => .ok []
    | .readArray _ _ _ => .ok []
    | .reifyView _ => .ok []

mutual
/-- `check_covered` (src/output/flat.rs:111-218): whether no byte is read outside items with a title;
`print_decoded_value` (src/output/flat.rs:7-13) turns the error into a panic.  The bound is one on the
nesting of items. -/
def checkCovered (m : Module) (st : Style) : Nat → Format → Outcome Unit Unit
  | fuel, .itemVar level _ _ =>
    if st.shown level then .ok ()
    else match fuel with
      | 0 => .fuel
      | fuel + 1 => match m.items[level]? with
        | some it => checkCovered m st fuel it.format
        | none => .panic
  | fuel, .phantom f => checkCovered m st fuel f
  | _, .fail => .ok ()
  | _, .endOfInput => .ok ()
  | _, .skipRemainder => .ok ()
  | _, .pos => .ok ()
  | _, .align _ => .ok ()
  | _, .byte _ => .err ()
  | fuel, .parseFromView _ f => checkCovered m st fuel f
  | fuel, .decodeBytes _ f => checkCovered m st fuel f
  | fuel, .variant _ f => checkCovered m st fuel f
  | fuel, .union fs => checkAll m st fuel fs
  | fuel, .unionNondet fs => checkAll m st fuel fs
  | fuel, .tuple fs => checkAll m st fuel fs
  | fuel, .sequence fs => checkAll m st fuel fs
  | fuel, .repeat_ f => checkCovered m st fuel f
  | fuel, .repeat1 f => checkCovered m st fuel f
  | fuel, .repeatCount _ f => checkCovered m st fuel f
  | fuel, .repeatBetween _ _ f => checkCovered m st fuel f
  | fuel, .forEach _ _ f => checkCovered m st fuel f
  | fuel, .repeatUntilLast _ f => checkCovered m st fuel f
  | fuel, .repeatUntilSeq _ f => checkCovered m st fuel f
  | fuel, .accumUntil _ _ _ _ f => checkCovered m st fuel f
  | fuel, .maybe _ f => checkCovered m st fuel f
  | _, .liftedNone => .ok ()
  | fuel, .liftedSome f => checkCovered m st fuel f
  | fuel, .peek f => checkCovered m st fuel f
  | _, .peekNot _ => .ok ()
  | fuel, .slice _ f => checkCovered m st fuel f
  | fuel, .bits f => checkCovered m st fuel f
  | fuel, .withRelativeOffset _ _ f => checkCovered m st fuel f
  | fuel, .map f _ => checkCovered m st fuel f
  | fuel, .where_ f _ _ => checkCovered m st fuel f
  | _, .compute _ => .ok ()
  | fuel, .let_ _ _ f => checkCovered m st fuel f
  | fuel, .letView _ f => checkCovered m st fuel f
  | fuel, .match_ _ bs => checkBranches m st fuel bs
  | fuel, .dynamic _ _ _ f => checkCovered m st fuel f
  | _, .apply _ => .ok ()
  | fuel, .letFormat f _ g =>
    do
      checkCovered m st fuel f
      checkCovered m st fuel g
  | fuel, .monadSeq f g =>
    do
      checkCovered m st fuel f
      checkCovered m st fuel g
  | fuel, .hint f => checkCovered m st fuel f
  | fuel, .enforce f => checkCovered m st fuel f
  | fuel, .permit f _ => checkCovered m st fuel f
  | _, .captureBytes _ _ => .ok ()
  | _, .readArray _ _ _ => .ok ()
  | _, .reifyView _ => .ok ()
/-- the loop over alternatives or parts -/
def checkAll (m : Module) (st : Style) : Nat → List Format → Outcome Unit Unit
  | _, [] => .ok ()
  | fuel, f :: fs =>
    do
      checkCovered m st fuel f
      checkAll m st fuel fs
/-- the loop over the branches of a match -/
def checkBranches (m : Module) (st : Style) : Nat → List (Pattern × Format) → Outcome Unit Unit
  | _, [] => .ok ()
  | fuel, (_, f) :: bs =>
    do
      checkCovered m st fuel f
      checkBranches m st fuel bs
end

end Doodle.Flat
