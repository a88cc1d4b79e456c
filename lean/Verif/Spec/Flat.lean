import Verif.Model.Flat
import Verif.Spec.Grammar
import Verif.Spec.Record

/-!
Which formats can be listed, and which formats read bytes outside titled items.
-/

namespace Doodle.Flat

/-- Formats whose listing does not look at the value. -/
def Blind (st : Style) : Format → Prop
  | .itemVar level _ _ => st.shown level = true
  | .phantom _ | .fail | .endOfInput | .skipRemainder | .align _ | .pos | .byte _ => True
  | .map _ _ | .where_ _ _ _ | .compute _ | .apply _ => True
  | .captureBytes _ _ | .readArray _ _ _ | .reifyView _ => True
  | .decodeBytes _ f => Blind st f
  | .parseFromView _ f => Blind st f
  | .peek f => Blind st f
  | .peekNot f => Blind st f
  | .slice _ f => Blind st f
  | .bits f => Blind st f
  | .withRelativeOffset _ _ f => Blind st f
  | .let_ _ _ f => Blind st f
  | .letView _ f => Blind st f
  | .dynamic _ _ _ f => Blind st f
  | .letFormat _ _ f => Blind st f
  | .monadSeq _ f => Blind st f
  | .permit f _ => Blind st f
  | .enforce f => Blind st f
  | .hint f => st.record f = false ∧ Blind st f
  | _ => False

mutual
/-- Formats all of whose values can be listed: record hints are around records made of distinct
fields, and what is negated or permitted to fail is blind. -/
def Listable (st : Style) : Format → Prop
  | .itemVar _ _ _ => True
  | .phantom _ | .fail | .endOfInput | .skipRemainder | .align _ | .pos | .byte _ => True
  | .map _ _ | .where_ _ _ _ | .compute _ | .apply _ => True
  | .captureBytes _ _ | .readArray _ _ _ | .reifyView _ => True
  | .liftedNone => True
  | .liftedSome f => Listable st f
  | .variant _ f => Listable st f
  | .union fs => ListableAll st fs
  | .unionNondet fs => ListableAll st fs
  | .tuple fs => ListableAll st fs
  | .sequence fs => ListableAll st fs
  | .repeat_ f => Listable st f
  | .repeat1 f => Listable st f
  | .repeatCount _ f => Listable st f
  | .repeatBetween _ _ f => Listable st f
  | .repeatUntilLast _ f => Listable st f
  | .repeatUntilSeq _ f => Listable st f
  | .accumUntil _ _ _ _ f => Listable st f
  | .forEach _ _ f => Listable st f
  | .maybe _ f => Listable st f
  | .decodeBytes _ f => Listable st f
  | .parseFromView _ f => Listable st f
  | .peek f => Listable st f
  | .peekNot f => Blind st f
  | .slice _ f => Listable st f
  | .bits f => Listable st f
  | .withRelativeOffset _ _ f => Listable st f
  | .let_ _ _ f => Listable st f
  | .letView _ f => Listable st f
  | .match_ _ bs => ListableBranches st bs
  | .dynamic _ _ _ f => Listable st f
  | .letFormat f _ g => Listable st f ∧ Listable st g
  | .monadSeq f g => Listable st f ∧ Listable st g
  | .permit f _ => Blind st f
  | .enforce f => Listable st f
  | .hint f => (st.record f = true →
      ∃ fs, Record.Shaped [] fs f ∧ Record.NoRebind (fs.map (·.1)) ∧ Record.NoClash (fs.map (·.1)))
      ∧ Listable st f
/-- every format of a list -/
def ListableAll (st : Style) : List Format → Prop
  | [] => True
  | f :: fs => Listable st f ∧ ListableAll st fs
/-- every branch -/
def ListableBranches (st : Style) : List (Pattern × Format) → Prop
  | [] => True
  | (_, f) :: bs => Listable st f ∧ ListableBranches st bs
end

/-- the formats directly inside a format, apart from what is negated -/
def parts : Format → List Format
  | .variant _ f | .repeat_ f | .repeat1 f | .repeatCount _ f | .repeatBetween _ _ f => [f]
  | .repeatUntilLast _ f | .repeatUntilSeq _ f | .accumUntil _ _ _ _ f | .forEach _ _ f => [f]
  | .maybe _ f | .peek f | .slice _ f | .bits f | .withRelativeOffset _ _ f | .map f _ => [f]
  | .where_ f _ _ | .let_ _ _ f | .dynamic _ _ _ f | .decodeBytes _ f | .hint f => [f]
  | .liftedSome f | .letView _ f | .parseFromView _ f | .phantom f | .enforce f | .permit f _ => [f]
  | .union fs | .unionNondet fs | .tuple fs | .sequence fs => fs
  | .match_ _ bs => bs.map (·.2)
  | .letFormat f _ g | .monadSeq f g => [f, g]
  | _ => []

/-- a byte is read outside all items that have a title -/
inductive Exposed (m : Module) (st : Style) : Format → Prop
  | byte {bs} : Exposed m st (.byte bs)
  | part {f g} : g ∈ parts f → Exposed m st g → Exposed m st f
  | item {level args views it} : st.shown level = false → m.items[level]? = some it →
      Exposed m st it.format → Exposed m st (.itemVar level args views)

/-- the format that is repeated -/
def repeated : Format → Option Format
  | .repeat_ f | .repeat1 f | .repeatCount _ f | .repeatBetween _ _ f => some f
  | .repeatUntilLast _ f | .repeatUntilSeq _ f | .forEach _ _ f => some f
  | _ => none

/-- the format whose value is passed on unchanged -/
def passed : Format → Option Format
  | .decodeBytes _ f | .parseFromView _ f | .peek f | .slice _ f | .bits f => some f
  | .withRelativeOffset _ _ f | .let_ _ _ f | .letView _ f | .dynamic _ _ _ f => some f
  | .letFormat _ _ f | .monadSeq _ f | .enforce f => some f
  | _ => none

mutual
/-- The lines of a value are the titled items in it from left to right, without the items inside them. -/
inductive Lines (m : Module) (st : Style) : Value → Format → List Nat → Prop
  | byte {b bs} : Lines m st (.u8 b) (.byte bs) []
  | titled {v level args views} : st.shown level = true → Lines m st v (.itemVar level args views) [level]
  | untitled {v level args views it ls} : st.shown level = false → m.items[level]? = some it →
      Lines m st v it.format ls → Lines m st v (.itemVar level args views) ls
  | variant {l v f ls} : Lines m st v f ls → Lines m st (.variant l v) (.variant l f) ls
  | union {fs i f v ls} : fs[i]? = some f → Lines m st v f ls → Lines m st (.branch i v) (.union fs) ls
  | unionNondet {fs i f v ls} : fs[i]? = some f → Lines m st v f ls →
      Lines m st (.branch i v) (.unionNondet fs) ls
  | match_ {e bs i p f v ls} : bs[i]? = some (p, f) → Lines m st v f ls →
      Lines m st (.branch i v) (.match_ e bs) ls
  | tuple {fs vs ls} : LinesZip m st vs fs ls → Lines m st (.tuple vs) (.tuple fs) ls
  | sequence {fs vs ls} : LinesZip m st vs fs ls → Lines m st (.seq (.strict vs)) (.sequence fs) ls
  | repeats {f g vs ls} : repeated g = some f → LinesEach m st vs f ls →
      Lines m st (.seq (.strict vs)) g ls
  | accum {cond upd init vt f acc vs ls} : LinesEach m st vs f ls →
      Lines m st (.tuple [acc, .seq (.strict vs)]) (.accumUntil cond upd init vt f) ls
  | present {e f v ls} : Lines m st v f ls → Lines m st (.optSome v) (.maybe e f) ls
  | absent {e f} : Lines m st .optNone (.maybe e f) []
  | pass {f g v ls} : passed g = some f → Lines m st v f ls → Lines m st v g ls
  | record {f fs rs ls} : st.record f = true → Record.Shaped [] fs f →
      Record.NoRebind (fs.map (·.1)) → Record.NoClash (fs.map (·.1)) → LinesFields m st rs fs ls →
      Lines m st (.record rs) (.hint f) ls
/-- side by side -/
inductive LinesZip (m : Module) (st : Style) : List Value → List Format → List Nat → Prop
  | nil : LinesZip m st [] [] []
  | cons {v vs f fs a b} : Lines m st v f a → LinesZip m st vs fs b →
      LinesZip m st (v :: vs) (f :: fs) (a ++ b)
/-- all in one format -/
inductive LinesEach (m : Module) (st : Style) : List Value → Format → List Nat → Prop
  | nil {f} : LinesEach m st [] f []
  | cons {v vs f a b} : Lines m st v f a → LinesEach m st vs f b → LinesEach m st (v :: vs) f (a ++ b)
/-- the kept fields of a record, each in the format of the field of its name -/
inductive LinesFields (m : Module) (st : Style) : List (String × Value) → List Record.Field → List Nat → Prop
  | nil {fs} : LinesFields m st [] fs []
  | cons {x g v rs fs a b} : (some (x, true), g) ∈ fs → Lines m st v g a → LinesFields m st rs fs b →
      LinesFields m st ((x, v) :: rs) fs (a ++ b)
end

/-- what listing a value prints -/
def Prints (m : Module) (st : Style) (v : Value) (f : Format) (ls : List Nat) : Prop :=
  ∃ n, ∀ fuel, n ≤ fuel → writeFlat m st fuel v f = .ok ls

end Doodle.Flat
