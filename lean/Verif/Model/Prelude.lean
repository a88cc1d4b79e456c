import Verif.Model.Panicky
import Verif.Model.SeqKind
import Verif.Model.Read

/-! Model of the sequence helpers of the generated-code runtime (/repo/src/prelude.rs) and of the
interpreter's `SubSeqInflate` on sequences (/repo/src/decoder.rs). -/

namespace Doodle
namespace Prelude
variable {T U V E α : Type}

/-- Loop of `try_flat_map_vec` (src/prelude.rs:113-118). -/
def tryFlatMapVecLoop (f : T → Except E (List U)) : List U → List T → Except E (List U)
  | res, [] => .ok res
  | res, x :: xs =>
    match f x with
    | .error e => .error e
    | .ok y => tryFlatMapVecLoop f (res ++ y) xs

/-- `try_flat_map_vec` (src/prelude.rs:109-119). -/
def tryFlatMapVec (iter : List T) (f : T → Except E (List U)) : Except E (List U) :=
  tryFlatMapVecLoop f [] iter

/-- Loop of `try_flat_map_append_vec` (src/prelude.rs:129-134). -/
def tryFlatMapAppendVecLoop (f : List U × T → Except E (List U)) : List U → List T → Except E (List U)
  | res, [] => .ok res
  | res, x :: xs =>
    match f (res, x) with
    | .error e => .error e
    | .ok y => tryFlatMapAppendVecLoop f (res ++ y) xs

/-- `try_flat_map_append_vec` (src/prelude.rs:125-135). -/
def tryFlatMapAppendVec (iter : List T) (f : List U × T → Except E (List U)) : Except E (List U) :=
  tryFlatMapAppendVecLoop f [] iter

/-- `seq_append` (src/prelude.rs:138-146). -/
def seqAppend (lhs rhs : List α) : List α := lhs ++ rhs

/-- `try_fold_left_curried` (src/prelude.rs:152-166). -/
def tryFoldLeftCurried (f : V × T → Except E V) : V → List T → Except E V
  | accum, [] => .ok accum
  | accum, x :: xs =>
    match f (accum, x) with
    | .error e => .error e
    | .ok newAccum => tryFoldLeftCurried f newAccum xs

/-- Loop of `try_fold_map_curried` (src/prelude.rs:181-187). -/
def tryFoldMapLoop (f : V × T → Except E (V × List U)) : List U → V → List T → Except E (List U)
  | res, _, [] => .ok res
  | res, accum, x :: xs =>
    match f (accum, x) with
    | .error e => .error e
    | .ok (newAccum, y) => tryFoldMapLoop f (res ++ y) newAccum xs

/-- `try_fold_map_curried` (src/prelude.rs:172-188). -/
def tryFoldMapCurried (iter : List T) (init : V) (f : V × T → Except E (V × List U)) :
    Except E (List U) :=
  tryFoldMapLoop f [] init iter

/-- `find_by_key_unsorted` (src/prelude.rs:209-214). -/
def findByKeyUnsorted (f : T → Nat) (query : Nat) (slice : List T) : Option T :=
  slice.find? (fun x => f x == query)

/-- `uN::from_le_bytes` (std): least significant byte first. -/
def fromLeBytes : List UInt8 → Nat
  | [] => 0
  | b :: bs => b.toNat + 256 * fromLeBytes bs

/-- `u16le`, `u32le`, `u64le` (src/prelude.rs:216-218, 224-226, 232-236) on 2, 4, 8 bytes. -/
def uintLe (bs : List UInt8) : Nat := fromLeBytes bs
/-- `u16be`, `u32be`, `u64be` (src/prelude.rs:220-222, 228-230, 238-242) on 2, 4, 8 bytes. -/
def uintBe (bs : List UInt8) : Nat := fromBeBytes bs

/-- `dup32` (src/prelude.rs:248-250). -/
def dup32 (count : Nat) (value : α) : List α := List.replicate count value

/-! ### back-references -/

/-- `for i in range { vs.push(vs[i]) }` (src/prelude.rs:473-475), `n` iterations from index `i`. -/
def extendLoop : List α → Nat → Nat → Panicky (List α)
  | vs, _, 0 => .ok vs
  | vs, i, n + 1 =>
    match vs[i]? with
    | some x => extendLoop (vs ++ [x]) (i + 1) n
    | none => .panic

/-- `extend_from_within_ext` (src/prelude.rs:467-478) on the half-open range `start..stop` (the
argument type is `Range<usize>`, so the end bound is always `Excluded`).
`Vec::extend_from_within` panics on a reversed range. -/
def extendFromWithinExt (vs : List α) (start stop : Nat) : Panicky (List α) :=
  if stop ≤ vs.length then
    if start ≤ stop then .ok (vs ++ (vs.drop start).take (stop - start)) else .panic
  else extendLoop vs start (stop - start)

/-- The `_ => { .. }` loop of `slice_ext` (src/prelude.rs:486-494). -/
def sliceExtLoop (vs : List α) : List α → Nat → Nat → Panicky (List α)
  | ret, _, 0 => .ok ret
  | ret, i, n + 1 =>
    if i ≥ vs.length then
      match ret[i - vs.length]? with
      | some x => sliceExtLoop vs (ret ++ [x]) (i + 1) n
      | none => .panic
    else
      match vs[i]? with
      | some x => sliceExtLoop vs (ret ++ [x]) (i + 1) n
      | none => .panic

/-- `slice_ext` (src/prelude.rs:480-498); slicing with a reversed range panics. -/
def sliceExt (vs : List α) (start stop : Nat) : Panicky (List α) :=
  if stop ≤ vs.length then
    if start ≤ stop then .ok ((vs.drop start).take (stop - start)) else .panic
  else sliceExtLoop vs [] start (stop - start)

/-- The loop of `Expr::SubSeqInflate` on a sequence value (src/decoder.rs:299-307); `i` counts up,
`n` iterations remain. -/
def inflateSeqLoop (vs0 : SeqKind α) (start : Nat) : List α → Nat → Nat → Panicky (List α)
  | vs, _, 0 => .ok vs
  | vs, i, n + 1 =>
    if i + start < vs0.len then
      match vs0.index (i + start) with
      | .ok x => inflateSeqLoop vs0 start (vs ++ [x]) (i + 1) n
      | .panic => .panic
    else
      match vs[i + start - vs0.len]? with
      | some x => inflateSeqLoop vs0 start (vs ++ [x]) (i + 1) n
      | none => .panic

/-- `Expr::SubSeqInflate` on a sequence value (src/decoder.rs:292-307). -/
def inflateSeq (vs0 : SeqKind α) (start length : Nat) : Panicky (List α) :=
  inflateSeqLoop vs0 start [] 0 length

/-- The loop of `Expr::SubSeqInflate` on an integer range `a..b` (src/decoder.rs:308-319):
`iter = range.skip(start)`. `conv` is `Value::from(usize)`. -/
def inflateRangeLoop (conv : Nat → α) (len start : Nat) : List α → List Nat → Nat → Nat → Panicky (List α)
  | vs, _, _, 0 => .ok vs
  | vs, v :: iter, i, n + 1 => inflateRangeLoop conv len start (vs ++ [conv v]) iter (i + 1) n
  | vs, [], i, n + 1 =>
    -- `i + start - len` is overflow-checked
    if i + start < len then .panic
    else
      match vs[i + start - len]? with
      | some x => inflateRangeLoop conv len start (vs ++ [x]) [] (i + 1) n
      | none => .panic

/-- `Expr::SubSeqInflate` on an integer range (src/decoder.rs:308-319). -/
def inflateRange (conv : Nat → α) (a b start length : Nat) : Panicky (List α) :=
  inflateRangeLoop conv (b - a) start [] ((List.range' a (b - a)).drop start) 0 length

/-- `repeat_between_finished` (src/prelude.rs:506-525); `none` is `Err(InsufficientRepeats)`. -/
def repeatBetweenFinished (outOfReps : Bool) (len min max : Nat) : Panicky (Option Bool) :=
  if min ≤ max then
    if len ≤ max then
      if outOfReps && decide (len < min) then .ok none
      else .ok (some (outOfReps || len == max))
    else .panic
  else .panic

end Prelude
end Doodle
