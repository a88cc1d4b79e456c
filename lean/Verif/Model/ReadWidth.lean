import Verif.Model.TypeAnalysis

/-!
Model of src/codegen/rust_ast/analysis/read_width.rs: how many bytes a value of a generated type is read from.  The overflow of a
sum of widths (a panic in a debug build) is `err ()`.  Answers about definitions are asked anew each time; the table of answers
(src/codegen/rust_ast/analysis.rs:105-107) is not modelled here.
-/

namespace Doodle
namespace TypeAnalysis

/-- `enum ValueWidth` (src/codegen/rust_ast/analysis/read_width.rs:8-12). -/
inductive Width where
  | varies (isDynamic : Bool)
  | fixed (n : Nat)
deriving DecidableEq, Repr

namespace Width

/-- `ValueWidth::as_fixed` (src/codegen/rust_ast/analysis/read_width.rs:19-24). -/
def asFixed : Width → Option Nat
  | .varies _ => none
  | .fixed n => some n

/-- `is_dynamic` after `ValueWidth::obfuscate` (src/codegen/rust_ast/analysis/read_width.rs:28-33). -/
def dynamic : Width → Bool
  | .varies d => d
  | .fixed _ => false

/-- `Add for ValueWidth` (src/codegen/rust_ast/analysis/read_width.rs:36-55). -/
def add : Width → Width → Outcome Unit Width
  | .fixed a, .fixed b => if a + b ≤ usizeMax then .ok (.fixed (a + b)) else .err ()
  | l, r => .ok (.varies (l.dynamic || r.dynamic))

/-- `BitAnd for ValueWidth` (src/codegen/rust_ast/analysis/read_width.rs:58-82). -/
def unify : Width → Width → Width
  | .fixed a, .fixed b => if a = b then .fixed a else .varies true
  | l, r => .varies (l.dynamic || r.dynamic)

end Width

/-- `PrimType::read_width` and `MachineUint::read_width` (src/codegen/rust_ast/analysis/read_width.rs:125-146). -/
def Prim.width : Prim → Width
  | .unit => .fixed 0
  | .bool => .varies false
  | .char => .varies false
  | .usize => .varies false
  | .unsigned w => .fixed (w.bits / 8)

mutual
/-- `read_width` of types, given that of definitions
(src/codegen/rust_ast/analysis/read_width.rs:90-123, 148-179). -/
def RType.width (look : Nat → Outcome Unit Width) : RType → Outcome Unit Width
  | .prim p => .ok p.width
  | .signed w => .ok (.fixed (w.bits / 8))
  | .localDef ix => look ix
  | .external => .panic
  | .vec _ => .ok (.varies true)
  | .rawSlice _ => .ok (.varies false)
  | .option _ => .ok (.varies false)
  | .result _ _ => .panic
  | .borrow _ _ => .ok (.varies false)
  | .phantomData _ => .ok (.fixed 0)
  | .tuple ts => RType.widthSum look (.fixed 0) ts
  | .verbatim => .panic
  | .readArray => .ok (.varies false)
  | .viewObject => .ok (.varies false)
/-- the loop `total = total + t.read_width(context)`
(src/codegen/rust_ast/analysis/read_width.rs:95-98, 211-214, 223-227). -/
def RType.widthSum (look : Nat → Outcome Unit Width) (total : Width) : List RType → Outcome Unit Width
  | [] => .ok total
  | t :: ts => do
    let w ← RType.width look t
    let total ← total.add w
    RType.widthSum look total ts
end

/-- `read_width` of variants (src/codegen/rust_ast/analysis/read_width.rs:206-219). -/
def RVariant.width (look : Nat → Outcome Unit Width) : RVariant → Outcome Unit Width
  | .unit => .ok (.fixed 0)
  | .tuple ts => RType.widthSum look (.fixed 0) ts

/-- the loop `total = total & b.read_width(context)` (src/codegen/rust_ast/analysis/read_width.rs:195-198). -/
def RVariant.widthAll (look : Nat → Outcome Unit Width) (total : Width) : List RVariant → Outcome Unit Width
  | [] => .ok total
  | v :: vs => do
    let w ← v.width look
    RVariant.widthAll look (total.unify w) vs

/-- `read_width` of definitions (src/codegen/rust_ast/analysis/read_width.rs:181-204, 221-230). -/
def TypeDef.width (look : Nat → Outcome Unit Width) : TypeDef → Outcome Unit Width
  | .struct fs => RType.widthSum look (.fixed 0) fs
  | .enum [] => .panic
  | .enum (v :: vs) => do
    let w ← v.width look
    RVariant.widthAll look w vs

/-- `SourceContext::get_width` (src/codegen/rust_ast/analysis.rs:105-107), with a bound on the nesting of definitions -/
def defWidth (defs : List TypeDef) : Nat → Nat → Outcome Unit Width
  | 0, _ => .fuel
  | n + 1, ix =>
    match defs[ix]? with
    | some d => d.width (defWidth defs n)
    | none => .panic

end TypeAnalysis
end Doodle
