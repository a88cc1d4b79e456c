import Verif.Model.Fragment

/-!
What the text of a fragment should be, said by way of texts alone.
-/

namespace Doodle.Out

/-- the texts of a list, with a separator between each two of them -/
def between (sep : List Char) : List (List Char) → List Char
  | [] => []
  | [t] => t
  | t :: u :: ts => t ++ sep ++ between sep (u :: ts)

/-- a text is a line with nothing after it but possibly its newline -/
def OneLine (t : List Char) : Prop := ∃ line, '\n' ∉ line ∧ (t = line ∨ t = line ++ ['\n'])

namespace Fragment

mutual
/-- every atom inside shows a text with the property `P` -/
def Atoms (P : List Char → Prop) : Fragment → Prop
  | .empty => True
  | .symbol _ => True
  | .char _ => True
  | .string _ => True
  | .atom s => P s
  | .group f => f.Atoms P
  | .cat a b => a.Atoms P ∧ b.Atoms P
  | .plain items => AtomsAll P items
  | .joined sep items => sep.Atoms P ∧ AtomsAll P items
/-- the same for every fragment of a list -/
def AtomsAll (P : List Char → Prop) : List Fragment → Prop
  | [] => True
  | f :: fs => f.Atoms P ∧ AtomsAll P fs
end

mutual
/-- no guide symbol occurs inside -/
def NoSymbol : Fragment → Prop
  | .symbol _ => False
  | .group f => f.NoSymbol
  | .cat a b => a.NoSymbol ∧ b.NoSymbol
  | .plain items => NoSymbolAll items
  | .joined sep items => (items ≠ [] → sep.NoSymbol) ∧ NoSymbolAll items
  | _ => True
/-- the same for every fragment of a list -/
def NoSymbolAll : List Fragment → Prop
  | [] => True
  | f :: fs => f.NoSymbol ∧ NoSymbolAll fs
end

end Fragment

/-- what can be done to a builder -/
inductive Step where
  | write (f : Fragment)
  | renew
  | push (f : Fragment)

/-- what a step adds to the output -/
def Step.added : Step → List Char
  | .write f => f.text
  | .renew => []
  | .push f => f.text

/-- a builder after a history of steps -/
def Step.run (b : Builder) : List Step → Builder
  | [] => b
  | .write f :: ss => Step.run (b.write f) ss
  | .renew :: ss => Step.run b.renew ss
  | .push f :: ss => Step.run (b.push f) ss

end Doodle.Out
