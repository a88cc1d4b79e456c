import Verif.Model.Panicky
import Verif.Model.Bounds

/-! Model of `SeqKind` and `ValueSeq` (/repo/src/decoder/seq_kind.rs). -/

namespace Doodle

/-- `enum SeqKind<T> { Strict(Vec<T>), Dup(usize, Box<T>) }` (src/decoder/seq_kind.rs:10-13). -/
inductive SeqKind (α : Type) where
  | strict (l : List α)
  | dup (n : Nat) (x : α)
deriving Repr

namespace SeqKind
variable {α : Type}

/-- `SeqKind::new` (src/decoder/seq_kind.rs:98-100). -/
def new : SeqKind α := .strict []

/-- `SeqKind::len` (src/decoder/seq_kind.rs:102-107). -/
def len : SeqKind α → Nat
  | .strict vs => vs.length
  | .dup n _ => n

/-- `SeqKind::is_empty` (src/decoder/seq_kind.rs:114-119). -/
def isEmpty : SeqKind α → Bool
  | .strict vs => vs.isEmpty
  | .dup n _ => n == 0

/-- `SeqKind::into_vec` (src/decoder/seq_kind.rs:122-127). -/
def intoVec : SeqKind α → List α
  | .strict vs => vs
  | .dup n v => List.replicate n v

/-- `SeqKind::get` (src/decoder/seq_kind.rs:131-136). -/
def get : SeqKind α → Nat → Option α
  | .strict vs, ix => vs[ix]?
  | .dup n v, ix => if ix < n then some v else none

/-- `Index::index` (src/decoder/seq_kind.rs:183-190). -/
def index (s : SeqKind α) (ix : Nat) : Panicky α := Panicky.unwrap (s.get ix)

/-- `SeqKind::sub_seq` (src/decoder/seq_kind.rs:140-160): slicing past the end panics. -/
def subSeq : SeqKind α → Nat → Nat → Panicky (SeqKind α)
  | .strict vs, start, len =>
    if start ≤ vs.length then
      let tmp := vs.drop start
      if len ≤ tmp.length then .ok (.strict (tmp.take len)) else .panic
    else .panic
  | .dup n v, start, len =>
    -- `start + len` is overflow-checked; an overflow panics like the out-of-bounds branch
    if start + len ≤ n then .ok (.dup len v) else .panic

/-- `SeqKind::iter` / `into_iter` (src/decoder/seq_kind.rs:162-167, 226-248): the yielded items. -/
def iter : SeqKind α → List α
  | .strict vs => vs
  | .dup n v => List.replicate n v

/-- `SeqKind::append` (src/decoder/seq_kind.rs:169-180). -/
def append (s t : SeqKind α) : SeqKind α :=
  if s.isEmpty then t
  else if t.isEmpty then s
  else .strict (s.intoVec ++ t.intoVec)

/-- `FromIterator` (src/decoder/seq_kind.rs:250-254). -/
def fromIter (l : List α) : SeqKind α := .strict l

end SeqKind

/-- `sub_range` (src/decoder/seq_kind.rs:51-61); a `Range<usize>` is its two ends.  The length of
`a..b` is `b - a` (0 if reversed). -/
def subRange (range : Nat × Nat) (start len : Nat) : Panicky (Nat × Nat) :=
  if start + len < range.2 - range.1 then .ok (range.1 + start, range.1 + start + len) else .panic

end Doodle
