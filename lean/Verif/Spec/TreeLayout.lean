import Verif.Model.TreeLayout
import Verif.Spec.Fragment

/-!
The outline a tree view shows, the lines it is drawn as, and how a reader gets the outline back from
them.
-/

namespace Doodle.Out

/-- an entry of an outline: a headline with entries below it, or the mark for entries left out -/
inductive Node where
  | field (head : List Char) (children : List Node)
  | skipped

/-- what is shown of a value: a text, or entries one below the other -/
inductive Shown where
  | inline (text : List Char)
  | block (entries : List Node)

/-- the entry for something with a label -/
def entry (label : List Char) : Shown → Node
  | .inline t => .field (label ++ " := ".toList ++ t) []
  | .block ns => .field (label ++ " :=".toList) ns

/-- entries labelled by their positions, from `i` on -/
def enumerate (i : Nat) : List Shown → List Node
  | [] => []
  | s :: ss => entry (Nat.toDigits 10 i) s :: enumerate (i + 1) ss

/-- a preview: everything if at most `n + 1` entries, and else the first `n`, a mark, and the last -/
def abridge (n : Nat) (ns : List Node) : List Node :=
  if ns.length ≤ n + 1 then ns else ns.take n ++ .skipped :: ns.drop (ns.length - 1)

/-- the truth value a value stands for -/
def flagOf : Value → Option Bool
  | .bool b => some b
  | .mapped _ v => flagOf v
  | .branch _ v => flagOf v
  | .permitOk v => flagOf v
  | _ => none

/-- Compound values: nonempty tuples, records, sequences and ranges, and anything around them. -/
def Compound : Value → Bool
  | .tuple vs => 0 < vs.length
  | .record fs => 0 < fs.length
  | .seq s => 0 < s.len
  | .enumFromTo a b => a.val < b.val
  | .variant _ v => Compound v
  | .mapped _ v => Compound v
  | .branch _ v => Compound v
  | .optSome v => Compound v
  | .permitOk v => Compound v
  | .permitErr v => Compound v
  | _ => false

/-- what is shown for a label around something: in braces if it is not compound -/
def wrapped (label : List Char) (compound : Bool) (s : Shown) : Shown :=
  match compound, s with
  | false, .inline t => .inline ("{ ".toList ++ label ++ " := ".toList ++ t ++ " }".toList)
  | _, s => .block [entry label s]

/-- a field shows if its name does not start with two underscores -/
def Visible (label : String) : Bool := !("__".toList.isPrefixOf label.toList)

/-- what is shown of a record with the given visible fields -/
def recordShown (fs : List (String × Option Bool × Shown)) : Shown :=
  if fs.isEmpty then .inline "{}".toList
  else if fs.all (fun f => f.2.1.isSome) then
    .inline ("bool-flags[".toList
      ++ between ['|'] ((fs.filter fun f => f.2.1 == some true).map fun f => f.1.toList) ++ [']'])
  else .block (fs.map fun f => entry f.1.toList f.2.2)

/-- what is shown of a sequence -/
def seqShown (preview : Nat) (ss : List Shown) : Shown :=
  if ss.isEmpty then .inline "[]".toList else .block (abridge preview (enumerate 0 ss))

mutual
/-- what the tree view shows of a value -/
def outline (t : Texts) (preview : Nat) : Value → Shown
  | .bool b => .inline (if b then "true".toList else "false".toList)
  | .num _ n => .inline (Nat.toDigits 10 n.val)
  | .numeric n => .inline (t.numeric n)
  | .char c => .inline (t.char c)
  | .view offset => .inline ("VIEW[+".toList ++ Nat.toDigits 10 offset ++ "]".toList)
  | .tuple vs =>
    if vs.isEmpty then .inline "()".toList else .block (enumerate 0 (outlines t preview vs))
  | .seq (.strict l) => seqShown preview (outlines t preview l)
  | .seq (.dup n v) => seqShown preview (List.replicate n (outline t preview v))
  | .enumFromTo a b => .inline ("[".toList ++ Nat.toDigits 10 a.val ++ "..".toList
      ++ Nat.toDigits 10 b.val ++ "]".toList)
  | .record fs => recordShown ((outlineFields t preview fs).filter fun f => Visible f.1)
  | .variant label v => wrapped label.toList (Compound v) (outline t preview v)
  | .mapped _ v => outline t preview v
  | .branch _ v => outline t preview v
  | .optNone => .inline "none".toList
  | .optSome v => wrapped "some".toList (Compound v) (outline t preview v)
  | .phantom => .inline "<PhantomData<_>>".toList
  | .permitOk v => .inline (t.display (.permitOk v))
  | .permitErr v => .inline (t.display (.permitErr v))
  | .permitErrNone => .inline (t.display .permitErrNone)
/-- of each item -/
def outlines (t : Texts) (preview : Nat) : List Value → List Shown
  | [] => []
  | v :: vs => outline t preview v :: outlines t preview vs
/-- of each field -/
def outlineFields (t : Texts) (preview : Nat) :
    List (String × Value) → List (String × Option Bool × Shown)
  | [] => []
  | (l, v) :: fs => (l, flagOf v, outline t preview v) :: outlineFields t preview fs
end

/-! ### Drawing an outline -/

/-- the guides left of an entry: one for each entry it is below of; a bar if more entries follow
that one -/
def guides : List Bool → List Char
  | [] => []
  | true :: g => "│   ".toList ++ guides g
  | false :: g => "    ".toList ++ guides g

mutual
/-- the lines of an entry, which is the last of its siblings or not -/
def Node.lines (g : List Bool) (last : Bool) : Node → List (List Char)
  | .skipped => [guides g ++ ['~']]
  | .field head children =>
    (guides g ++ (if last then "└── ".toList else "├── ".toList) ++ head)
      :: forestLines (g ++ [!last]) children
/-- the lines of siblings -/
def forestLines (g : List Bool) : List Node → List (List Char)
  | [] => []
  | n :: ns => Node.lines g ns.isEmpty n ++ forestLines g ns
end

/-- lines as text -/
def unlines : List (List Char) → List Char
  | [] => []
  | l :: ls => l ++ '\n' :: unlines ls

/-- what is shown, as text -/
def Shown.text : Shown → List Char
  | .inline t => t
  | .block ns => unlines (forestLines [] ns)

/-! ### Reading it back -/

/-- the lines of a text -/
def splitLines (cur : List Char) : List Char → List (List Char)
  | [] => []
  | c :: cs => if c = '\n' then cur :: splitLines [] cs else splitLines (cur ++ [c]) cs

/-- the depth of a line, and its headline if it is not the mark for what is left out -/
def readLine : List Char → Option (Nat × Option (List Char))
  | '│' :: ' ' :: ' ' :: ' ' :: cs => (readLine cs).map fun r => (r.1 + 1, r.2)
  | ' ' :: ' ' :: ' ' :: ' ' :: cs => (readLine cs).map fun r => (r.1 + 1, r.2)
  | '├' :: '─' :: '─' :: ' ' :: cs => some (0, some cs)
  | '└' :: '─' :: '─' :: ' ' :: cs => some (0, some cs)
  | ['~'] => some (0, none)
  | _ => none

/-- Putting entries together: below an entry is what follows it at greater depth. -/
def assemble : Nat → List (Nat × Option (List Char)) → List Node
  | 0, _ => []
  | _ + 1, [] => []
  | fuel + 1, (_, none) :: rest => .skipped :: assemble fuel rest
  | fuel + 1, (d, some h) :: rest =>
    .field h (assemble fuel (rest.takeWhile fun r => d < r.1))
      :: assemble fuel (rest.dropWhile fun r => d < r.1)

/-- the outline a text is read as -/
def readTree (text : List Char) : List Node :=
  let rs := (splitLines [] text).filterMap readLine
  assemble rs.length rs

/-- what a text is read as: an outline if it has newlines, and else as it is -/
def readView (text : List Char) : Shown :=
  if text.contains '\n' then .block (readTree text) else .inline text

mutual
/-- no label inside contains a newline -/
def PlainLabels : Value → Prop
  | .tuple vs => PlainLabelsAll vs
  | .record fs => PlainLabelsFields fs
  | .variant label v => '\n' ∉ label.toList ∧ PlainLabels v
  | .seq (.strict l) => PlainLabelsAll l
  | .seq (.dup _ v) => PlainLabels v
  | .mapped orig v => PlainLabels orig ∧ PlainLabels v
  | .branch _ v => PlainLabels v
  | .optSome v => PlainLabels v
  | .permitOk v => PlainLabels v
  | .permitErr v => PlainLabels v
  | _ => True
/-- the same for items -/
def PlainLabelsAll : List Value → Prop
  | [] => True
  | v :: vs => PlainLabels v ∧ PlainLabelsAll vs
/-- the same for fields -/
def PlainLabelsFields : List (String × Value) → Prop
  | [] => True
  | (l, v) :: fs => '\n' ∉ l.toList ∧ PlainLabels v ∧ PlainLabelsFields fs
end

/-- what Rust's formatting writes has no newlines: it escapes them in characters, and shows a value
in one piece in one line if its labels are -/
structure Texts.Plain (t : Texts) : Prop where
  numeric : ∀ c, '\n' ∉ t.numeric c
  char : ∀ c, '\n' ∉ t.char c
  display : ∀ v, PlainLabels v → '\n' ∉ t.display v

end Doodle.Out
