import Verif.Model.Fragment
import Verif.Model.Value

/-!
Model of the tree view of values (/repo/src/output/tree.rs), as `TreePrinter::compile_value` builds
it: the case `format = None` of every function below, with the flags `TreePrinter::new` sets.

The printer's stack of columns is an argument instead of a field that is pushed and popped.  How a
number of `Value::Numeric`, a character (in quotes) and a `Value::Permit` are written by Rust's
formatting is left open: it is given by `Texts`.
-/

namespace Doodle.Out
open Doodle.Num (TypedConst)

/-- what Rust's formatting writes for numbers of numeric formats, for characters in quotes, and for
values shown in one piece (src/decoder/value.rs:83-152) -/
structure Texts where
  numeric : TypedConst → List Char
  char : Char → List Char
  display : Value → List Char

/-- `enum Column` (src/output/tree.rs:42-46). -/
inductive Column where
  | branch | space
deriving DecidableEq, Repr

/-- the symbol of a column (src/output/tree.rs:1531-1534) -/
def Column.symbol : Column → Symbol
  | .branch => .pipe
  | .space => .vacuum

/-- `TreePrinter::compile_gutter` (src/output/tree.rs:1528-1537). -/
def compileGutter (g : List Column) : Fragment :=
  (g.foldl (fun b c => b.push (.symbol c.symbol)) Builder.new).finalize

/-- `TreePrinter::compile_field_value` (src/output/tree.rs:1712-1730). -/
def compileFieldValue (g : List Column) (val : List Column → Fragment) : Fragment :=
  ((Fragment.string " :=".toList).joinWithWsp (val g)).group

/-- `TreePrinter::compile_field_value_continue` (src/output/tree.rs:1578-1607). -/
def fieldContinue (g : List Column) (label : List Char) (val : List Column → Fragment) : Fragment :=
  let b := Builder.new.push (compileGutter g)
  let b := b.push ((Fragment.symbol .junction).concat (.string label))
  let b := b.push (compileFieldValue (g ++ [.branch]) val)
  b.finalize.group

/-- `TreePrinter::compile_field_value_last` (src/output/tree.rs:1641-1670). -/
def fieldLast (g : List Column) (label : List Char) (val : List Column → Fragment) : Fragment :=
  let b := Builder.new.push (compileGutter g)
  let b := b.push ((Fragment.symbol .elbow).concat (.string label))
  let b := b.push (compileFieldValue (g ++ [.space]) val)
  b.finalize.group

/-- `TreePrinter::compile_field_skipped` (src/output/tree.rs:1732-1736). -/
def fieldSkipped (g : List Column) : Fragment :=
  ((compileGutter g).concat (.string "~\n".toList)).group

/-- the loop over fields that others follow (src/output/tree.rs:1046-1053, 1212-1215, 1452-1457) -/
def layContinue (g : List Column) (fs : List (List Char × (List Column → Fragment))) : Fragment :=
  fs.foldl (fun frag f => frag.concat (fieldContinue g f.1 f.2)) .empty

/-- all fields of a tuple or record, of which there is at least one
(src/output/tree.rs:1044-1060, 1450-1463) -/
def layFields (g : List Column) (fs : List (List Char × (List Column → Fragment))) : Fragment :=
  match fs.getLast? with
  | none => .empty
  | some l => (layContinue g fs.dropLast).concat (fieldLast g l.1 l.2)

/-- the items with their indices as labels -/
def numbered (fs : List (List Column → Fragment)) : List (List Char × (List Column → Fragment)) :=
  fs.zipIdx.map fun p => (Nat.toDigits 10 p.2, p.1)

/-- `TreePrinter::compile_tuple` (src/output/tree.rs:1040-1062). -/
def compileTuple (fs : List (List Column → Fragment)) (g : List Column) : Fragment :=
  if fs.isEmpty then .string "()".toList else layFields g (numbered fs)

/-- `TreePrinter::compile_seq` (src/output/tree.rs:1199-1226). -/
def compileSeq (preview : Option Nat) (fs : List (List Column → Fragment)) (g : List Column) :
    Fragment :=
  if fs.isEmpty then .string "[]".toList
  else
    let last := fs.length - 1
    let (upper, skipped) := match preview with
      | some p => if fs.length > p then (p, p != last) else (last, false)
      | none => (last, false)
    let frag := layContinue g ((numbered fs).take upper)
    let frag := if skipped then frag.concat (fieldSkipped g) else frag
    match (numbered fs)[last]? with
    | none => frag
    | some l => frag.concat (fieldLast g l.1 l.2)

/-- `lab.starts_with("__")` (src/output/tree.rs:1430, 1435) -/
def hidden (label : String) : Bool := label.toList.take 2 == ['_', '_']

/-- `Value::is_boolean` (src/decoder/value.rs:329-331). -/
def isBoolean (v : Value) : Bool :=
  match v.coerceMapped with
  | .bool _ => true
  | _ => false

/-- `value.coerce_mapped_value().unwrap_bool()` (src/output/tree.rs:1471); only asked of values that
are booleans -/
def isSet (v : Value) : Bool :=
  match v.coerceMapped with
  | .bool b => b
  | _ => false

/-- `TreePrinter::compile_bool_flags` (src/output/tree.rs:1467-1479). -/
def compileBoolFlags (fs : List (String × Value)) : Fragment :=
  (Fragment.string "bool-flags".toList).concat
    ((Fragment.seq ((fs.filter fun f => isSet f.2).map fun f => .string f.1.toList)
      (some (.char '|'))).delimit (.char '[') (.char ']'))

/-- `TreePrinter::compile_record` (src/output/tree.rs:1422-1465). -/
def compileRecord (fs : List (String × Value × (List Column → Fragment))) (g : List Column) :
    Fragment :=
  let vs := if fs.any (fun f => hidden f.1) then fs.filter (fun f => !hidden f.1) else fs
  if vs.isEmpty then .string "{}".toList
  else if vs.all fun f => isBoolean f.2.1 then compileBoolFlags (vs.map fun f => (f.1, f.2.1))
  else layFields g (vs.map fun f => (f.1.toList, f.2.2))

/-- `TreePrinter::is_atomic_value` without a format (src/output/tree.rs:219-286). -/
def isAtomic : Value → Bool
  | .char _ => true
  | .bool _ => true
  | .num _ _ => true
  | .numeric _ => true
  | .view _ => true
  | .tuple vs => vs.isEmpty
  | .record fs => fs.isEmpty
  | .seq (.strict l) => l.isEmpty
  | .seq (.dup n _) => n == 0
  | .enumFromTo a b => decide (b.val ≤ a.val)
  | .variant _ v => isAtomic v
  | .mapped _ v => isAtomic v
  | .branch _ v => isAtomic v
  | .optNone => true
  | .optSome v => isAtomic v
  | .phantom => true
  | .permitOk v => isAtomic v
  | .permitErr v => isAtomic v
  | .permitErrNone => true

/-- `TreePrinter::compile_variant` without a format (src/output/tree.rs:1507-1526). -/
def compileVariant (label : List Char) (atomic : Bool) (val : List Column → Fragment)
    (g : List Column) : Fragment :=
  if atomic then
    (((Fragment.empty.concat (.string ("{ ".toList ++ label ++ " := ".toList))).concat
      (val g)).concat (.string " }".toList)).group
  else fieldLast g label val

mutual
/-- `TreePrinter::compile_value` (src/output/tree.rs:812-850). -/
def compile (t : Texts) (preview : Option Nat) : Value → List Column → Fragment
  | .bool true => fun _ => .string "true".toList
  | .bool false => fun _ => .string "false".toList
  | .num _ n => fun _ => .atom (Nat.toDigits 10 n.val)
  | .numeric n => fun _ => .atom (t.numeric n)
  | .char c => fun _ => .atom (t.char c)
  | .view offset => fun _ => .string ("VIEW[+".toList ++ Nat.toDigits 10 offset ++ [']'])
  | .tuple vs => compileTuple (compileAll t preview vs)
  | .seq (.strict l) => compileSeq preview (compileAll t preview l)
  | .seq (.dup n v) => compileSeq preview (List.replicate n (compile t preview v))
  | .enumFromTo a b => fun _ =>
    ((Fragment.atom (Nat.toDigits 10 a.val)).intervene (.string "..".toList)
      (.atom (Nat.toDigits 10 b.val))).delimit (.char '[') (.char ']')
  | .record fs => compileRecord (compileFields t preview fs)
  | .variant label v => compileVariant label.toList (isAtomic v) (compile t preview v)
  | .mapped _ v => compile t preview v
  | .branch _ v => compile t preview v
  | .optNone => fun _ => .string "none".toList
  | .optSome v => compileVariant "some".toList (isAtomic v) (compile t preview v)
  | .phantom => fun _ => (Fragment.string "PhantomData<_>".toList).delimit (.char '<') (.char '>')
  | .permitOk v => fun _ => .string (t.display (.permitOk v))
  | .permitErr v => fun _ => .string (t.display (.permitErr v))
  | .permitErrNone => fun _ => .string (t.display .permitErrNone)
/-- the items of tuples and sequences -/
def compileAll (t : Texts) (preview : Option Nat) : List Value → List (List Column → Fragment)
  | [] => []
  | v :: vs => compile t preview v :: compileAll t preview vs
/-- the fields of records -/
def compileFields (t : Texts) (preview : Option Nat) :
    List (String × Value) → List (String × Value × (List Column → Fragment))
  | [] => []
  | (l, v) :: fs => (l, v, compile t preview v) :: compileFields t preview fs
end

/-- the text of the tree view of a value, as `TreePrinter::new` makes it
(src/output/tree.rs:376-393) -/
def treeText (t : Texts) (v : Value) : List Char := (compile t (some 10) v []).text

end Doodle.Out
