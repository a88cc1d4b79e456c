import Verif.Model.Panicky

/-! Model of /repo/src/codegen/name.rs and /repo/src/codegen/path_names.rs: naming of generated types. -/

namespace Doodle
namespace Names

/-- `NameAtom` (src/codegen/name.rs:26-42); the one `Derivation` is `Lhs` (src/codegen/name.rs:11-14). -/
inductive NameAtom where
  | explicit (l : String)
  | recordField (l : String)
  | variant (l : String)
  | positional (ix : Nat)
  | bind (l : String)
  | derived
  | deadEnd
deriving DecidableEq, Repr

/-- `Display for NameAtom` (src/codegen/name.rs:44-56); `Derivation::token` (src/codegen/name.rs:17-21). -/
def NameAtom.display : NameAtom → String
  | .explicit l => l
  | .positional ix => "ix" ++ toString ix
  | .recordField l => l
  | .bind l => l
  | .variant l => l
  | .derived => "lhs"
  | .deadEnd => "POISON"

/-- `PathLabel` (src/codegen/name.rs:57); the last element is the top of the stack -/
abbrev Path := List NameAtom

/-- the loop of `is_refinement` once the first path is exhausted (src/codegen/name.rs:71-76); `none` is
`break` -/
def isRefinementRest : List NameAtom → Option Bool
  | [] => none
  | .deadEnd :: _ => some false
  | .explicit _ :: _ => some true
  | _ :: ys => isRefinementRest ys

/-- the loop of `is_refinement`, on the reversed paths (src/codegen/name.rs:62-97); `none` is `break` -/
def isRefinementLoop : List NameAtom → List NameAtom → Option Bool
  | [], ys => isRefinementRest ys
  | .deadEnd :: _, _ => some true
  | .explicit _ :: _, [] => some false
  | _ :: xs, [] => isRefinementLoop xs []
  | _ :: _, .deadEnd :: _ => some false
  | .explicit lx :: xs, .explicit ly :: ys => if lx = ly then isRefinementLoop xs ys else none
  | .explicit _ :: _, _ :: _ => some false
  | _ :: _, .explicit _ :: _ => some true
  | _ :: xs, _ :: ys => isRefinementLoop xs ys

/-- `is_refinement` (src/codegen/name.rs:61-100). -/
def isRefinement (x y : Path) : Bool :=
  match isRefinementLoop x.reverse y.reverse with
  | some b => b
  | none => decide (y.length < x.length)

/-- `PHeap<PathLabel>` (src/codegen/name.rs:110-114); the `BTreeSet` is a list without repetitions. -/
structure Heap where
  fixed : List Path
  floating : List Path
deriving DecidableEq, Repr

/-- `PHeap::new` (src/codegen/name.rs:118-123). -/
def Heap.new : Heap := ⟨[], []⟩

/-- `PHeap::get_priority` (src/codegen/name.rs:129-139). -/
def Heap.getPriority (h : Heap) (p : Path) : Option Nat :=
  match h.fixed.findIdx? (· == p) with
  | some i => some i
  | none => if p ∈ h.floating then some (h.fixed.length + h.floating.length - 1) else none

/-- `PHeap::fix` (src/codegen/name.rs:146-162); `none` is the error. -/
def Heap.fix (h : Heap) (p : Path) : Option Nat × Heap :=
  match h.fixed.findIdx? (· == p) with
  | some i => (some i, h)
  | none =>
    if p ∈ h.floating then (some h.fixed.length, ⟨h.fixed ++ [p], h.floating.erase p⟩)
    else (none, h)

/-- `PHeap::insert` (src/codegen/name.rs:165-169). -/
def Heap.insert (h : Heap) (p : Path) : Heap :=
  if p ∈ h.fixed then h
  else if p ∈ h.floating then h
  else { h with floating := p :: h.floating }

/-- `underscore_join` (src/codegen/name.rs:373-380), with `Fragment::intervene` and `is_vacuous`
(src/output.rs:96-117, 204-214): the text of the fragment is what is kept. -/
def underscoreJoin (tail pre : String) : String :=
  if pre = "" then tail
  else if tail = "" then pre
  else pre ++ "_" ++ tail

/-- the loop of `synthesize_name`, on the reversed path (src/codegen/name.rs:266-276) -/
def synthesizeLoop : List NameAtom → String → String
  | [], buffer => buffer
  | .explicit n :: _, buffer => underscoreJoin buffer n
  | a :: rest, buffer => synthesizeLoop rest (underscoreJoin buffer a.display)

/-- `NameCtxt::synthesize_name` (src/codegen/name.rs:265-280). -/
def synthesizeName (p : Path) : String := synthesizeLoop p.reverse ""

/-- the loop of `trim`, with `ix` counting down from `path.len()` (src/codegen/name.rs:282-288) -/
def trimLoop (p : Path) : Nat → Path
  | 0 => p
  | ix + 1 =>
    match p[ix]? with
    | some (.explicit _) => p.drop ix
    | _ => trimLoop p ix

/-- `NameCtxt::trim` (src/codegen/name.rs:281-290). -/
def trim (p : Path) : Path := trimLoop p p.length

/-- `dedup` (src/codegen/name.rs:364-371). -/
def dedup (rawname : String) (ix : Nat) : String :=
  if ix = 0 then rawname else rawname ++ "__dupX" ++ toString ix

/-- `NameCtxt` (src/codegen/name.rs:102-106); the `BTreeMap` is a function from keys. -/
structure Ctxt where
  stack : Path
  table : String → Option Heap

/-- `NameCtxt::new` (src/codegen/name.rs:173-178). -/
def Ctxt.new : Ctxt := ⟨[], fun _ => none⟩

/-- writing one entry of the table -/
def Ctxt.set (c : Ctxt) (k : String) (h : Heap) : Ctxt :=
  { c with table := fun k' => if k' = k then some h else c.table k' }

/-- `NameCtxt::push_atom` (src/codegen/name.rs:182-186). -/
def Ctxt.pushAtom (c : Ctxt) (a : NameAtom) : Ctxt := { c with stack := c.stack ++ [a] }

/-- `NameCtxt::increment_index` (src/codegen/name.rs:193-199). -/
def Ctxt.incrementIndex (c : Ctxt) : Ctxt :=
  match c.stack.getLast? with
  | some (.positional ix) => { c with stack := c.stack.dropLast ++ [.positional (ix + 1)] }
  | _ => { c with stack := c.stack ++ [.positional 0] }

/-- `NameCtxt::escape` (src/codegen/name.rs:206-222). -/
def Ctxt.escape (c : Ctxt) : Panicky Ctxt :=
  match c.stack with
  | [] => .panic
  | a :: as => .ok { c with stack := (a :: as).dropLast }

/-- `NameCtxt::find_name_for` (src/codegen/name.rs:295-319); `none` is the error. The table is changed
through its `RefCell`. -/
def Ctxt.findNameFor (c : Ctxt) (loc : Path) : Option String × Ctxt :=
  let rawname := synthesizeName loc
  match c.table rawname with
  | none => (none, c)
  | some heap =>
    let r := heap.fix (trim loc)
    match r.1 with
    | some ix => (some (dedup rawname ix), c.set rawname r.2)
    | none => (none, c.set rawname r.2)

/-- `NameCtxt::get_priority` (src/codegen/name.rs:323-332). -/
def Ctxt.getPriority (c : Ctxt) (loc : Path) : Panicky (Option Nat) :=
  match c.table (synthesizeName loc) with
  | none => .panic
  | some heap => .ok (heap.getPriority (trim loc))

/-- `NameCtxt::register_path`, with `resolve` (src/codegen/name.rs:250-262, 336-340). -/
def Ctxt.registerPath (c : Ctxt) : Path × Ctxt :=
  let identifier := synthesizeName c.stack
  let heap := (c.table identifier).getD Heap.new
  (trim c.stack, c.set identifier (heap.insert (trim c.stack)))

/-- `NameCtxt::refine_path` (src/codegen/name.rs:343-360): the path kept. -/
def Ctxt.refinePath (c : Ctxt) (x y : Path) : Panicky Path :=
  if synthesizeName x = synthesizeName y then do
    let px ← c.getPriority x
    let py ← c.getPriority y
    match px, py with
    | some xp, some yp => .ok (if yp < xp then y else x)
    | none, some _ => .ok y
    | _, _ => .ok x
  else .ok (if isRefinement x y then y else x)

/-! ### names of type declarations -/

/-- `NameGen` (src/codegen/path_names.rs:8-15), over any type `D` of declarations. The two maps are lists of
entries with one entry per key. -/
structure Gen (D : Type) where
  ctxt : Ctxt
  ctr : Nat
  revMap : List (D × Nat × Path)
  nameRemap : List (String × Path)

/-- `NameGen::new` (src/codegen/path_names.rs:18-25). -/
def Gen.new (D : Type) : Gen D := ⟨Ctxt.new, 0, [], []⟩

/-- `StableMap::get` -/
def lookup {K V : Type} [DecidableEq K] (k : K) : List (K × V) → Option V
  | [] => none
  | (k', v) :: rest => if k' = k then some v else lookup k rest

/-- `StableMap::insert` -/
def insertKey {K V : Type} [DecidableEq K] (k : K) (v : V) : List (K × V) → List (K × V)
  | [] => [(k, v)]
  | (k', v') :: rest => if k' = k then (k, v) :: rest else (k', v') :: insertKey k v rest

/-- `NameGen::get_name` (src/codegen/path_names.rs:53-107): the name, the index, and whether it is new. -/
def Gen.getName {D : Type} [DecidableEq D] (g : Gen D) (decl : D) : Panicky ((String × Nat × Bool) × Gen D) :=
  match lookup decl g.revMap with
  | some (ix, origPath) =>
    let r := g.ctxt.findNameFor origPath
    match r.1 with
    | some name => do
      let p := r.2.registerPath
      let best ← match lookup name g.nameRemap with
        | some prior => p.2.refinePath prior p.1
        | none => .ok p.1
      .ok ((name, ix, false), { g with ctxt := p.2, nameRemap := insertKey name best g.nameRemap })
    | none => .panic
  | none =>
    let p := g.ctxt.registerPath
    let r := p.2.findNameFor p.1
    match r.1 with
    | some name =>
      .ok ((name, g.ctr, true),
        ⟨r.2, g.ctr + 1, insertKey decl (g.ctr, p.1) g.revMap, insertKey name p.1 g.nameRemap⟩)
    | none => .panic

/-- the loop of `manifest_renaming_table` (src/codegen/path_names.rs:27-40) -/
def renamingLoop (c : Ctxt) : List (String × Path) → Panicky (List (String × String) × Ctxt)
  | [] => .ok ([], c)
  | (k, v) :: rest => do
    let r := c.findNameFor v
    let rename ← Panicky.unwrap r.1
    let s ← renamingLoop r.2 rest
    .ok ((k, rename) :: s.1, s.2)

/-- `NameGen::manifest_renaming_table` (src/codegen/path_names.rs:27-42). -/
def Gen.renamingTable {D : Type} (g : Gen D) : Panicky (List (String × String)) := do
  let r ← renamingLoop g.ctxt g.nameRemap
  .ok r.1

end Names
end Doodle
