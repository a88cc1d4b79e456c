import Verif.Model.Panicky

/-!
Model of keyed search (/repo/src/decoder/search.rs).

`getKey ix` stands for `evaluate(f_get_key, &values[ix])`: it may panic.  The key cache
(`KeyCache`, lines 41-52) only avoids re-evaluation of a pure function and is not modelled.
`cmp` stands for `query.compare_as_key(..)`, which panics on operands of different kinds.
-/

namespace Doodle

/-- The `while lower_bound_ix <= upper_bound_ix` loop (src/decoder/search.rs:108-125).  `fuel` bounds
the number of iterations; running out is reported as `panic` (and proved not to happen).
`mid - 1` is overflow-checked. -/
def searchLoop {V : Type} (cmp : V → Panicky Ordering) (getKey : Nat → Panicky V) :
    Nat → Nat → Nat → Panicky (Option Nat)
  | 0, _, _ => .panic
  | fuel + 1, lo, hi =>
    if lo ≤ hi then
      let mid := (lo + hi) / 2
      match getKey mid with
      | .panic => .panic
      | .ok k =>
        match cmp k with
        | .panic => .panic
        | .ok .lt => if mid = 0 then .panic else searchLoop cmp getKey fuel lo (mid - 1)
        | .ok .eq => .ok (some mid)
        | .ok .gt => searchLoop cmp getKey fuel (mid + 1) hi
    else .ok none

/-- `find_index_by_key_sorted` (src/decoder/search.rs:54-127). -/
def findIndexByKeySorted {V : Type} (cmp : V → Panicky Ordering) (getKey : Nat → Panicky V)
    (len : Nat) : Panicky (Option Nat) :=
  if len = 0 then .ok none
  else
    match getKey 0 with
    | .panic => .panic
    | .ok k0 =>
      match cmp k0 with
      | .panic => .panic
      | .ok .lt => .ok none
      | .ok .eq => .ok (some 0)
      | .ok .gt =>
        if len ≤ 1 then .ok none
        else
          match getKey (len - 1) with
          | .panic => .panic
          | .ok kl =>
            match cmp kl with
            | .panic => .panic
            | .ok .gt => .ok none
            | .ok .eq => .ok (some (len - 1))
            | .ok .lt =>
              if len ≤ 2 then .ok none
              else searchLoop cmp getKey (len + 1) 0 (len - 1)

/-- `find_index_by_key_unsorted` (src/decoder/search.rs:129-147); `ix` is the `enumerate` counter. -/
def findIndexByKeyUnsorted {V V0 : Type} (eqKey : V → Panicky Bool) (evaluate : V0 → Panicky V) :
    List V0 → Nat → Panicky (Option Nat)
  | [], _ => .ok none
  | v :: vs, ix =>
    match evaluate v with
    | .panic => .panic
    | .ok k =>
      match eqKey k with
      | .panic => .panic
      | .ok true => .ok (some ix)
      | .ok false => findIndexByKeyUnsorted eqKey evaluate vs (ix + 1)

end Doodle
