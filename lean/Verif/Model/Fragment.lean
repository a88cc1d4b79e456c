/-!
Model of the text fragments everything printed is built of (/repo/src/output.rs).

Text is a list of characters.  `DebugAtom` and `DisplayAtom` are one constructor that holds the text
the atom is shown as.  `Sequence { sep, items }` is one constructor for `sep = None` and one for
`sep = Some(_)`.
-/

namespace Doodle.Out

/-- `enum Symbol` (src/output.rs:11-17). -/
inductive Symbol where
  | vacuum | elbow | pipe | junction
deriving DecidableEq, Repr

/-- `impl Display for Symbol` (src/output.rs:19-29). -/
def Symbol.text : Symbol → List Char
  | .vacuum => [' ', ' ', ' ', ' ']
  | .pipe => ['│', ' ', ' ', ' ']
  | .junction => ['├', '─', '─', ' ']
  | .elbow => ['└', '─', '─', ' ']

/-- `enum Fragment` (src/output.rs:32-47). -/
inductive Fragment where
  | empty
  | symbol (s : Symbol)
  | char (c : Char)
  | string (s : List Char)
  | atom (s : List Char)
  | group (f : Fragment)
  | cat (a b : Fragment)
  | plain (items : List Fragment)
  | joined (sep : Fragment) (items : List Fragment)

namespace Fragment

mutual
/-- `impl Display for Fragment` (src/output.rs:411-446): the text that is shown. -/
def text : Fragment → List Char
  | .empty => []
  | .symbol s => s.text
  | .char c => [c]
  | .string s => s
  | .atom s => s
  | .group f => f.text
  | .cat a b => a.text ++ b.text
  | .plain items => textAll items
  | .joined sep items => textJoined sep.text items
/-- the loop of `Display` without separator (src/output.rs:424-443) -/
def textAll : List Fragment → List Char
  | [] => []
  | f :: fs => f.text ++ textAll fs
/-- the loop of `Display` with a separator (src/output.rs:424-443) -/
def textJoined (sep : List Char) : List Fragment → List Char
  | [] => []
  | f :: fs => f.text ++ textRest sep fs
/-- the rest of that loop, after the first item (src/output.rs:437-440) -/
def textRest (sep : List Char) : List Fragment → List Char
  | [] => []
  | f :: fs => sep ++ f.text ++ textRest sep fs
end

/-- `Fragment::is_empty` (src/output.rs:84-86). -/
def isEmpty : Fragment → Bool
  | .empty => true
  | _ => false

mutual
/-- `Fragment::is_vacuous` (src/output.rs:96-117). -/
def isVacuous : Fragment → Bool
  | .empty => true
  | .symbol _ => false
  | .char _ => false
  | .string s => s.isEmpty
  | .atom _ => false
  | .group f => f.isVacuous
  | .cat a b => a.isVacuous && b.isVacuous
  | .plain items => allVacuous items
  | .joined sep items =>
    if items.length ≤ 1 then allVacuous items else sep.isVacuous && allVacuous items
/-- `items.iter().all(Fragment::is_vacuous)` -/
def allVacuous : List Fragment → Bool
  | [] => true
  | f :: fs => f.isVacuous && allVacuous fs
end

/-- `Fragment::seq` (src/output.rs:124-145). -/
def seq (items : List Fragment) (sep : Option Fragment) : Fragment :=
  if items.isEmpty then .empty
  else if items.length == 1 then .plain items
  else match sep with
    | none => .plain items
    | some s => if s.isVacuous then .plain items else .joined s items

/-- `Fragment::cat` (src/output.rs:150-158), called `append` on a mutable receiver
(src/output.rs:220-224). -/
def concat (a b : Fragment) : Fragment :=
  if a.isEmpty then b else if b.isEmpty then a else .cat a b

/-- `Fragment::delimit` (src/output.rs:163-165). -/
def delimit (f before after : Fragment) : Fragment := (before.concat f).concat after

/-- `Fragment::intervene` (src/output.rs:204-214). -/
def intervene (a sep b : Fragment) : Fragment :=
  if a.isVacuous then b
  else if b.isVacuous then a
  else if sep.isVacuous then a.concat b
  else (a.concat sep).concat b

/-- `Fragment::cat_break` (src/output.rs:246-248). -/
def catBreak (f : Fragment) : Fragment := f.concat (.char '\n')

mutual
/-- `Fragment::is_single_line` (src/output.rs:269-302). -/
def isSingleLine (final : Bool) : Fragment → Bool
  | .empty => true
  | .char c => if c = '\n' then final else true
  | .string s =>
    match s.dropWhile (· ≠ '\n') with
    | [] => true
    | [_] => final
    | _ => false
  | .symbol _ => true
  | .atom _ => true
  | .group f => f.isSingleLine final
  | .cat a b => a.isSingleLine false && b.isSingleLine final
  | .plain items => allSingle final items
  | .joined sep items => (items.isEmpty || sep.isSingleLine false) && allSingle final items
/-- the loop over the items (src/output.rs:294-299): only the last one may be final -/
def allSingle (final : Bool) : List Fragment → Bool
  | [] => true
  | f :: fs => f.isSingleLine (final && fs.isEmpty) && allSingle final fs
end

mutual
/-- `Fragment::fits_inline` (src/output.rs:310-331). -/
def fitsInline : Fragment → Bool
  | .empty => true
  | .char c => c != '\n'
  | .string s => !s.contains '\n'
  | .symbol _ => false
  | .atom _ => true
  | .group f => f.fitsInline
  | .cat a b => a.fitsInline && b.fitsInline
  | .plain items => allInline items
  | .joined sep items => (items.isEmpty || sep.fitsInline) && allInline items
/-- `items.iter().all(Self::fits_inline)` -/
def allInline : List Fragment → Bool
  | [] => true
  | f :: fs => f.fitsInline && allInline fs
end

/-- `Fragment::join_with_wsp` (src/output.rs:336-342). -/
def joinWithWsp (a b : Fragment) : Fragment :=
  if b.fitsInline then ((a.concat (.char ' ')).concat b).catBreak else a.catBreak.concat b

/-- `Fragment::join_with_wsp_eol` (src/output.rs:347-353). -/
def joinWithWspEol (a b trailer : Fragment) : Fragment :=
  if b.fitsInline then ((a.concat (.char ' ')).concat b).catBreak
  else (a.concat trailer).catBreak.concat b

end Fragment

/-- `struct FragmentBuilder` (src/output.rs:357-360). -/
structure Builder where
  frozen : List Fragment
  active : Fragment

namespace Builder

/-- `FragmentBuilder::new` (src/output.rs:363-368). -/
def new : Builder := ⟨[], .empty⟩

/-- `FragmentBuilder::renew` (src/output.rs:376-382). -/
def renew (b : Builder) : Builder :=
  if b.active.isEmpty then ⟨b.frozen, .empty⟩ else ⟨b.frozen ++ [b.active], .empty⟩

/-- `active_mut().append(f)` (src/output.rs:370-372). -/
def write (b : Builder) (f : Fragment) : Builder := { b with active := b.active.concat f }

/-- `FragmentBuilder::push` (src/output.rs:386-398). -/
def push (b : Builder) (f : Fragment) : Builder :=
  if b.active.isEmpty then ⟨b.frozen ++ [f], .empty⟩
  else if f.isEmpty then ⟨b.frozen ++ [b.active], .empty⟩
  else ⟨b.frozen ++ [b.active, f], .empty⟩

/-- `FragmentBuilder::finalize` (src/output.rs:400-403). -/
def finalize (b : Builder) : Fragment := .seq b.renew.frozen none

/-- `FragmentBuilder::finalize_with_sep` (src/output.rs:405-408). -/
def finalizeWithSep (b : Builder) (sep : Fragment) : Fragment := .seq b.renew.frozen (some sep)

end Builder

end Doodle.Out
