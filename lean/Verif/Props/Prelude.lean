import Verif.Model.Prelude
import Verif.Props.SeqKind
import Verif.Props.Read

/-! Properties C29 (back-reference copy) and C45 (sequence helpers of the runtime). -/

namespace Doodle
namespace Prelude
variable {T U V E α : Type}

/-! ## C45 -/

/-- When every step succeeds, `try_flat_map_vec` is flat-map. -/
theorem C45_flatMap_ok (xs : List T) (g : T → List U) (f : T → Except E (List U))
    (h : ∀ x ∈ xs, f x = .ok (g x)) : tryFlatMapVec xs f = .ok (xs.flatMap g) := by
  have gen : ∀ (res : List U), tryFlatMapVecLoop f res xs = .ok (res ++ xs.flatMap g) := by
    induction xs with
    | nil => intro res; simp [tryFlatMapVecLoop]
    | cons x xs ih =>
      intro res
      simp only [tryFlatMapVecLoop, h x (by simp)]
      rw [ih (fun y hy => h y (by simp [hy]))]
      simp
  simpa [tryFlatMapVec] using gen []

/-- Otherwise it returns the first failure; nothing after the failing element matters (whatever `post`
is, and however `f` behaves on it). -/
theorem C45_flatMap_err (pre post : List T) (x : T) (e : E) (f : T → Except E (List U))
    (hpre : ∀ y ∈ pre, ∃ r, f y = .ok r) (hx : f x = .error e) :
    tryFlatMapVec (pre ++ x :: post) f = .error e := by
  have gen : ∀ (res : List U), tryFlatMapVecLoop f res (pre ++ x :: post) = .error e := by
    induction pre with
    | nil => intro res; simp [tryFlatMapVecLoop, hx]
    | cons y ys ih =>
      intro res
      obtain ⟨r, hr⟩ := hpre y (by simp)
      simp only [List.cons_append, tryFlatMapVecLoop, hr]
      exact ih (fun z hz => hpre z (by simp [hz])) _
  exact gen []

/-- Specification of append-flat-map: each step sees everything produced so far. -/
inductive FlatMapAppend (f : List U × T → Except E (List U)) : List U → List T → List U → Prop where
  | nil (res) : FlatMapAppend f res [] res
  | cons {res y out x xs} : f (res, x) = .ok y → FlatMapAppend f (res ++ y) xs out →
      FlatMapAppend f res (x :: xs) out

theorem C45_flatMapAppend (f : List U × T → Except E (List U)) (xs : List T) (out : List U) :
    tryFlatMapAppendVec xs f = .ok out ↔ FlatMapAppend f [] xs out := by
  have gen : ∀ (res : List U), tryFlatMapAppendVecLoop f res xs = .ok out ↔ FlatMapAppend f res xs out := by
    induction xs with
    | nil =>
      intro res
      simp only [tryFlatMapAppendVecLoop]
      constructor
      · intro h; cases h; exact .nil _
      · intro h; cases h; rfl
    | cons x xs ih =>
      intro res
      simp only [tryFlatMapAppendVecLoop]
      cases hf : f (res, x) with
      | error e =>
        simp only []
        constructor
        · intro h; cases h
        · intro h
          cases h with
          | cons h1 _ => rw [hf] at h1; cases h1
      | ok y =>
        simp only [ih]
        constructor
        · intro h; exact .cons hf h
        · intro h
          cases h with
          | cons h1 h2 => rw [hf] at h1; cases h1; exact h2
  exact gen []

theorem C45_flatMapAppend_err (f : List U × T → Except E (List U)) (pre post : List T) (x : T) (e : E)
    (mid : List U) (hpre : FlatMapAppend f [] pre mid) (hx : f (mid, x) = .error e) :
    tryFlatMapAppendVec (pre ++ x :: post) f = .error e := by
  have gen : ∀ (res : List U), FlatMapAppend f res pre mid →
      tryFlatMapAppendVecLoop f res (pre ++ x :: post) = .error e := by
    clear hpre
    induction pre with
    | nil =>
      intro res h
      cases h
      simp [tryFlatMapAppendVecLoop, hx]
    | cons y ys ih =>
      intro res h
      cases h with
      | cons h1 h2 =>
        simp only [List.cons_append, tryFlatMapAppendVecLoop, h1]
        exact ih _ h2
  exact gen [] hpre

/-- Fold-left is the left fold when every step succeeds. -/
theorem C45_foldLeft_ok (xs : List T) (g : V → T → V) (f : V × T → Except E V)
    (h : ∀ v, ∀ x ∈ xs, f (v, x) = .ok (g v x)) (init : V) :
    tryFoldLeftCurried f init xs = .ok (xs.foldl g init) := by
  induction xs generalizing init with
  | nil => rfl
  | cons x xs ih =>
    simp only [tryFoldLeftCurried, h init x (by simp), List.foldl_cons]
    exact ih (fun v y hy => h v y (by simp [hy])) _

/-- First failure wins, nothing later matters. -/
theorem C45_foldLeft_err (pre post : List T) (x : T) (e : E) (f : V × T → Except E V) (init mid : V)
    (hpre : tryFoldLeftCurried f init pre = .ok mid) (hx : f (mid, x) = .error e) :
    tryFoldLeftCurried f init (pre ++ x :: post) = .error e := by
  induction pre generalizing init with
  | nil => simp only [tryFoldLeftCurried] at hpre; cases hpre; simp [tryFoldLeftCurried, hx]
  | cons y ys ih =>
    simp only [List.cons_append, tryFoldLeftCurried] at hpre ⊢
    cases hf : f (init, y) with
    | error e' => rw [hf] at hpre; cases hpre
    | ok v => rw [hf] at hpre; exact ih _ hpre

/-- Specification of fold-map: thread the accumulator, concatenate the outputs, drop the accumulator. -/
inductive FoldMap (f : V × T → Except E (V × List U)) : V → List T → List U → V → Prop where
  | nil (v) : FoldMap f v [] [] v
  | cons {v v' v'' x xs y out} : f (v, x) = .ok (v', y) → FoldMap f v' xs out v'' →
      FoldMap f v (x :: xs) (y ++ out) v''

theorem C45_foldMap (f : V × T → Except E (V × List U)) (init : V) (xs : List T) (out : List U) :
    tryFoldMapCurried xs init f = .ok out ↔ ∃ v', FoldMap f init xs out v' := by
  have gen : ∀ (res : List U) (v : V) (o : List U),
      tryFoldMapLoop f res v xs = .ok o ↔ ∃ out v', FoldMap f v xs out v' ∧ o = res ++ out := by
    induction xs with
    | nil =>
      intro res v o
      simp only [tryFoldMapLoop]
      constructor
      · intro h; cases h; exact ⟨[], v, .nil v, by simp⟩
      · rintro ⟨out, v', h, rfl⟩; cases h; simp
    | cons x xs ih =>
      intro res v o
      simp only [tryFoldMapLoop]
      cases hf : f (v, x) with
      | error e =>
        simp only []
        constructor
        · intro h; cases h
        · rintro ⟨out, v', h, rfl⟩
          cases h with
          | cons h1 _ => rw [hf] at h1; cases h1
      | ok p =>
        obtain ⟨v1, y⟩ := p
        simp only [ih]
        constructor
        · rintro ⟨out, v', h, rfl⟩
          exact ⟨y ++ out, v', .cons hf h, by simp⟩
        · rintro ⟨out, v', h, rfl⟩
          cases h with
          | cons h1 h2 =>
            rw [hf] at h1; cases h1
            exact ⟨_, v', h2, by simp⟩
  unfold tryFoldMapCurried
  rw [gen]
  constructor
  · rintro ⟨o, v', h, rfl⟩; exact ⟨v', by simpa using h⟩
  · rintro ⟨v', h⟩; exact ⟨out, v', h, by simp⟩

theorem C45_foldMap_err (f : V × T → Except E (V × List U)) (init mid : V) (pre post : List T) (x : T)
    (e : E) (out : List U) (hpre : FoldMap f init pre out mid) (hx : f (mid, x) = .error e) :
    tryFoldMapCurried (pre ++ x :: post) init f = .error e := by
  have gen : ∀ (res : List U), tryFoldMapLoop f res init (pre ++ x :: post) = .error e := by
    induction hpre with
    | nil v => intro res; simp [tryFoldMapLoop, hx]
    | cons h1 _ ih =>
      intro res
      simp only [List.cons_append, tryFoldMapLoop, h1]
      exact ih hx _
  exact gen []

theorem C45_seqAppend (a b : List α) : seqAppend a b = a ++ b := rfl

theorem C45_findUnsorted (f : T → Nat) (q : Nat) (l : List T) :
    (∀ x, findByKeyUnsorted f q l = some x → f x = q ∧ x ∈ l) ∧
    (findByKeyUnsorted f q l = none ↔ ∀ x ∈ l, f x ≠ q) := by
  unfold findByKeyUnsorted
  constructor
  · intro x h
    have h1 := List.find?_some h
    exact ⟨by simpa using h1, List.mem_of_find?_eq_some h⟩
  · rw [List.find?_eq_none]; simp

/-- Little- and big-endian conversions are each other's reversal, and big-endian is positional value. -/
theorem C45_endian (bs : List UInt8) :
    uintBe bs = ReadCtxt.bigEndian bs ∧ uintLe bs = uintBe bs.reverse := by
  have hbe : ∀ l, uintBe l = ReadCtxt.bigEndian l := ReadCtxt.fromBeBytes_eq
  refine ⟨hbe bs, ?_⟩
  rw [hbe]
  have happ : ∀ (l : List UInt8) (b : UInt8),
      ReadCtxt.bigEndian (l ++ [b]) = ReadCtxt.bigEndian l * 256 + b.toNat := by
    intro l b
    induction l with
    | nil => simp [ReadCtxt.bigEndian]
    | cons x xs ih =>
      simp only [List.cons_append, ReadCtxt.bigEndian, ih, List.length_append, List.length_singleton,
        Nat.pow_succ, Nat.add_mul, Nat.mul_assoc]
      omega
  unfold uintLe
  induction bs with
  | nil => rfl
  | cons x xs ih =>
    rw [List.reverse_cons, happ, ← ih, fromLeBytes]; omega

/-- `repeat_between_finished`: the loop stops exactly when input is exhausted or the maximum is
reached; stopping below the minimum is the error. -/
theorem C45_repeatBetweenFinished (oor : Bool) (len min max : Nat) (h1 : min ≤ max) (h2 : len ≤ max) :
    (repeatBetweenFinished oor len min max = .ok none ↔ oor = true ∧ len < min) ∧
    (repeatBetweenFinished oor len min max = .ok (some true) ↔
      (oor = true ∧ min ≤ len) ∨ (oor = false ∧ len = max)) ∧
    (repeatBetweenFinished oor len min max = .ok (some false) ↔ oor = false ∧ len < max) := by
  unfold repeatBetweenFinished
  rw [if_pos h1, if_pos h2]
  cases oor
  · simp; omega
  · by_cases c : len < min
    · simp [c]
    · simp [c]; omega

example : tryFlatMapVec [1, 2, 3] (fun n => if n < 9 then Except.ok (List.replicate n n) else .error ()) =
    .ok [1, 2, 2, 3, 3, 3] := rfl
example : tryFlatMapVec [1, 9, 3] (fun n => if n < 9 then Except.ok (List.replicate n n) else .error n) =
    .error 9 := rfl
example : tryFoldMapCurried [1, 2, 3] 10 (fun p => (Except.ok (p.1 + p.2, [p.1]) : Except Unit _)) =
    .ok [10, 11, 13] := rfl

/-! ## C29 -/

/-- Specification: copy one element at a time from `d` positions before the current end, `n` times. -/
def copyBack (d : Nat) : Nat → List α → Option (List α)
  | 0, buf => some buf
  | n + 1, buf =>
    if d ≤ buf.length then
      match buf[buf.length - d]? with
      | some x => copyBack d n (buf ++ [x])
      | none => none
    else none

theorem copyBack_append (d : Nat) (hd : 0 < d) (n : Nat) (buf : List α) (hle : d ≤ buf.length) :
    ∃ out, copyBack d n buf = some (buf ++ out) ∧ out.length = n := by
  induction n generalizing buf with
  | zero => exact ⟨[], by simp [copyBack], rfl⟩
  | succ n ih =>
    unfold copyBack
    rw [if_pos hle, List.getElem?_eq_getElem (by omega)]
    obtain ⟨out, h1, h2⟩ := ih (buf ++ [buf[buf.length - d]]) (by simp; omega)
    exact ⟨buf[buf.length - d] :: out, by simp [h1], by simp [h2]⟩

theorem extendLoop_eq (d : Nat) (hd : 0 < d) (n : Nat) (buf : List α) (hle : d ≤ buf.length) :
    extendLoop buf (buf.length - d) n = Panicky.unwrap (copyBack d n buf) := by
  induction n generalizing buf with
  | zero => simp [extendLoop, copyBack, Panicky.unwrap]
  | succ n ih =>
    unfold extendLoop copyBack
    rw [if_pos hle, List.getElem?_eq_getElem (by omega)]
    have := ih (buf ++ [buf[buf.length - d]]) (by simp; omega)
    simp only []
    rw [← this]
    congr 1
    simp; omega

theorem sliceExtLoop_eq (vs : List α) (d : Nat) (hd : 0 < d) (hle : d ≤ vs.length) (n : Nat)
    (ret : List α) :
    (match sliceExtLoop vs ret (vs.length - d + ret.length) n with
      | .ok out => Panicky.ok (vs ++ out) | .panic => .panic) =
      Panicky.unwrap (copyBack d n (vs ++ ret)) := by
  induction n generalizing ret with
  | zero => simp [sliceExtLoop, copyBack, Panicky.unwrap]
  | succ n ih =>
    unfold sliceExtLoop copyBack
    have hc0 : d ≤ (vs ++ ret).length := by simp; omega
    rw [if_pos hc0]
    have hix : (vs ++ ret).length - d = vs.length - d + ret.length := by simp; omega
    rw [hix]
    by_cases c : vs.length - d + ret.length ≥ vs.length
    · rw [if_pos c]
      rw [List.getElem?_append_right c]
      rw [List.getElem?_eq_getElem (by omega)]
      simp only []
      have := ih (ret ++ [ret[vs.length - d + ret.length - vs.length]'(by omega)])
      rw [List.append_assoc]
      rw [← this]
      congr 2
      simp; omega
    · rw [if_neg c]
      rw [List.getElem?_append_left (by omega)]
      rw [List.getElem?_eq_getElem (by omega)]
      simp only []
      have := ih (ret ++ [vs[vs.length - d + ret.length]'(by omega)])
      rw [List.append_assoc]
      rw [← this]
      congr 2
      simp; omega

theorem copyBack_short (d n : Nat) (buf : List α) (hle : d ≤ buf.length) (hn : n ≤ d) :
    copyBack d n buf = some (buf ++ (buf.drop (buf.length - d)).take n) := by
  have gen : ∀ (n k : Nat), n + k ≤ d →
      copyBack d n (buf ++ (buf.drop (buf.length - d)).take k) =
        some (buf ++ (buf.drop (buf.length - d)).take (n + k)) := by
    intro n
    induction n with
    | zero => intro k _; simp [copyBack]
    | succ n ih =>
      intro k hk
      unfold copyBack
      have hl : (buf ++ (buf.drop (buf.length - d)).take k).length = buf.length + k := by simp; omega
      have hc0 : d ≤ (buf ++ (buf.drop (buf.length - d)).take k).length := by rw [hl]; omega
      rw [if_pos hc0, hl]
      have e1 : (buf ++ (buf.drop (buf.length - d)).take k)[buf.length + k - d]? =
          some (buf[buf.length - d + k]'(by omega)) := by
        rw [List.getElem?_append_left (by omega)]
        rw [List.getElem?_eq_getElem (by omega)]
        congr 2; omega
      rw [e1]
      simp only []
      have e2 : (buf.drop (buf.length - d)).take k ++ [buf[buf.length - d + k]'(by omega)] =
          (buf.drop (buf.length - d)).take (k + 1) := by
        rw [List.take_add_one]
        congr 1
        rw [List.getElem?_drop, List.getElem?_eq_getElem (by omega)]
        rfl
      rw [List.append_assoc, e2, ih (k + 1) (by omega), show n + (k + 1) = n + 1 + k by omega]
  simpa using gen n 0 (by omega)

/-- Runtime `slice_ext` inflates a back-reference exactly as one-at-a-time copying does, for every
buffer, distance `1 ≤ d ≤ len` and length `n` (also `n > d`). -/
theorem C29_sliceExt (buf : List α) (d n : Nat) (hd : 0 < d) (hle : d ≤ buf.length) :
    ∃ out, sliceExt buf (buf.length - d) (buf.length - d + n) = .ok out ∧
      out.length = n ∧ copyBack d n buf = some (buf ++ out) := by
  obtain ⟨out, h1, h2⟩ := copyBack_append d hd n buf hle
  refine ⟨out, ?_, h2, h1⟩
  unfold sliceExt
  by_cases c : buf.length - d + n ≤ buf.length
  · rw [if_pos c, if_pos (by omega)]
    rw [copyBack_short d n buf hle (by omega)] at h1
    simp only [Option.some.injEq, List.append_cancel_left_eq] at h1
    rw [← h1]
    congr 2; omega
  · rw [if_neg c]
    have := sliceExtLoop_eq buf d hd hle n []
    simp only [List.append_nil, List.length_nil, Nat.add_zero, h1, Panicky.unwrap] at this
    have e : buf.length - d + n - (buf.length - d) = n := by omega
    rw [e]
    cases hs : sliceExtLoop buf [] (buf.length - d) n with
    | panic => rw [hs] at this; cases this
    | ok o =>
      rw [hs] at this
      simp only [Panicky.ok.injEq, List.append_cancel_left_eq] at this
      rw [this]

/-- Runtime `extend_from_within_ext` leaves the buffer as one-at-a-time copying does. -/
theorem C29_extendFromWithinExt (buf : List α) (d n : Nat) (hd : 0 < d) (hle : d ≤ buf.length) :
    ∃ res, extendFromWithinExt buf (buf.length - d) (buf.length - d + n) = .ok res ∧
      copyBack d n buf = some res := by
  obtain ⟨out, h1, h2⟩ := copyBack_append d hd n buf hle
  refine ⟨_, ?_, h1⟩
  unfold extendFromWithinExt
  by_cases c : buf.length - d + n ≤ buf.length
  · rw [if_pos c, if_pos (by omega)]
    rw [copyBack_short d n buf hle (by omega)] at h1
    simp only [Option.some.injEq, List.append_cancel_left_eq] at h1
    rw [← h1]
    congr 3; omega
  · rw [if_neg c]
    have e : buf.length - d + n - (buf.length - d) = n := by omega
    rw [e, extendLoop_eq d hd n buf hle, h1]; rfl

theorem inflateSeqLoop_eq (s : SeqKind α) (l : List α) (hs : SeqKind.denotes s l) (d : Nat)
    (hd : 0 < d) (hle : d ≤ l.length) (n : Nat) (vs : List α) :
    inflateSeqLoop s (l.length - d) vs vs.length n = sliceExtLoop l vs (l.length - d + vs.length) n := by
  have hlen := SeqKind.C27_len s l hs
  induction n generalizing vs with
  | zero => simp [inflateSeqLoop, sliceExtLoop]
  | succ n ih =>
    unfold inflateSeqLoop sliceExtLoop
    rw [hlen]
    have ecomm : vs.length + (l.length - d) = l.length - d + vs.length := by omega
    rw [ecomm]
    have step : ∀ x, inflateSeqLoop s (l.length - d) (vs ++ [x]) (vs.length + 1) n =
        sliceExtLoop l (vs ++ [x]) (l.length - d + vs.length + 1) n := by
      intro x
      have := ih (vs ++ [x])
      simpa [Nat.add_assoc] using this
    by_cases c : l.length - d + vs.length < l.length
    · rw [if_pos c, if_neg (by omega)]
      rw [((SeqKind.C27_index s l hs _).1 (l[l.length - d + vs.length])).2 (List.getElem?_eq_getElem c)]
      rw [List.getElem?_eq_getElem c]
      exact step _
    · rw [if_neg c, if_pos (by omega)]
      cases h : vs[l.length - d + vs.length - l.length]? with
      | none => rfl
      | some x => exact step x

/-- The interpreter's inflation of a back-reference on any sequence value agrees with
one-at-a-time copying. -/
theorem C29_interpreter (s : SeqKind α) (l : List α) (hs : SeqKind.denotes s l) (d n : Nat)
    (hd : 0 < d) (hle : d ≤ l.length) :
    ∃ out, inflateSeq s (l.length - d) n = .ok out ∧ out.length = n ∧
      copyBack d n l = some (l ++ out) := by
  obtain ⟨out, h1, h2⟩ := copyBack_append d hd n l hle
  refine ⟨out, ?_, h2, h1⟩
  unfold inflateSeq
  have e1 := inflateSeqLoop_eq s l hs d hd hle n []
  have e2 := sliceExtLoop_eq l d hd hle n []
  simp only [List.append_nil, List.length_nil, Nat.add_zero, h1, Panicky.unwrap] at e1 e2
  rw [e1]
  cases h : sliceExtLoop l [] (l.length - d) n with
  | panic => rw [h] at e2; cases e2
  | ok o =>
    rw [h] at e2
    simp only [Panicky.ok.injEq, List.append_cancel_left_eq] at e2
    rw [e2]

theorem inflateRangeLoop_eq (conv : Nat → α) (a len d : Nat) (hd : 0 < d) (hle : d ≤ len) (n : Nat)
    (vs : List α) :
    inflateRangeLoop conv len (len - d) vs ((List.range' a len).drop (len - d + vs.length)) vs.length n =
      sliceExtLoop ((List.range' a len).map conv) vs (len - d + vs.length) n := by
  induction n generalizing vs with
  | zero => simp [inflateRangeLoop, sliceExtLoop]
  | succ n ih =>
    have step : ∀ x, inflateRangeLoop conv len (len - d) (vs ++ [x])
        ((List.range' a len).drop (len - d + vs.length + 1)) (vs.length + 1) n =
        sliceExtLoop ((List.range' a len).map conv) (vs ++ [x]) (len - d + vs.length + 1) n := by
      intro x
      have := ih (vs ++ [x])
      simpa [Nat.add_assoc] using this
    unfold sliceExtLoop
    simp only [List.length_map, List.length_range']
    by_cases c : len - d + vs.length < len
    · rw [if_neg (by omega)]
      rw [List.drop_eq_getElem_cons (by simpa using c)]
      unfold inflateRangeLoop
      rw [List.getElem?_eq_getElem (by simpa using c)]
      simp only [List.getElem_map]
      exact step _
    · rw [if_pos (by omega)]
      have hn : (List.range' a len).drop (len - d + vs.length) = [] := by
        apply List.drop_eq_nil_of_le; simp; omega
      rw [hn]
      unfold inflateRangeLoop
      have ec : vs.length + (len - d) = len - d + vs.length := by omega
      rw [ec, if_neg c]
      cases h : vs[len - d + vs.length - len]? with
      | none => rfl
      | some x =>
        have := step x
        have hn' : (List.range' a len).drop (len - d + vs.length + 1) = [] := by
          apply List.drop_eq_nil_of_le; simp; omega
        rw [hn'] at this
        exact this

/-- The same for the lazily represented integer range `a..b`. -/
theorem C29_interpreter_range (conv : Nat → α) (a b d n : Nat) (hd : 0 < d) (hle : d ≤ b - a) :
    ∃ out, inflateRange conv a b (b - a - d) n = .ok out ∧ out.length = n ∧
      copyBack d n ((List.range' a (b - a)).map conv) = some ((List.range' a (b - a)).map conv ++ out) := by
  have hle' : d ≤ ((List.range' a (b - a)).map conv).length := by simpa using hle
  obtain ⟨out, h1, h2⟩ := copyBack_append d hd n _ hle'
  refine ⟨out, ?_, h2, h1⟩
  unfold inflateRange
  have e1 := inflateRangeLoop_eq conv a (b - a) d hd hle n []
  have e2 := sliceExtLoop_eq _ d hd hle' n []
  simp only [List.append_nil, List.length_nil, Nat.add_zero, h1, Panicky.unwrap] at e1 e2
  rw [e1]
  have hl : ((List.range' a (b - a)).map conv).length = b - a := by simp
  rw [hl] at e2
  cases h : sliceExtLoop ((List.range' a (b - a)).map conv) [] (b - a - d) n with
  | panic => rw [h] at e2; cases e2
  | ok o =>
    rw [h] at e2
    simp only [Panicky.ok.injEq, List.append_cancel_left_eq] at e2
    rw [e2]

/-- Distance zero (or a start at or past the end) has nothing to copy from: both sides panic. -/
theorem C29_start_past_end (buf : List α) (start n : Nat) (h : buf.length ≤ start) :
    sliceExt buf start (start + (n + 1)) = .panic ∧
    inflateSeq (.strict buf) start (n + 1) = .panic := by
  constructor
  · unfold sliceExt
    rw [if_neg (by omega), show start + (n + 1) - start = n + 1 by omega]
    unfold sliceExtLoop
    rw [if_pos h]
    simp
  · unfold inflateSeq inflateSeqLoop
    rw [if_neg (by simp [SeqKind.len]; omega)]
    simp

/-- Non-vacuity: overlapping copy, distance 2, length 5. -/
example : sliceExt [1, 2, 3] 1 6 = .ok [2, 3, 2, 3, 2] := by decide
example : copyBack 2 5 [1, 2, 3] = some [1, 2, 3, 2, 3, 2, 3, 2] := by decide

end Prelude
end Doodle
