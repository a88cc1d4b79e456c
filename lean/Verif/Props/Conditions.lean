import Verif.Lemmas.Conditions
import Verif.Props.Bounds

/-! Property C53: formats with conditions, and the expressions made by the helpers. -/

namespace Doodle
namespace Helper

open Num (BitWidth)

/-! ### conditions -/

section
variable [DecidableEq Next]

/-- The bounds of `where_between` and `expect_between` are inclusive. -/
theorem C53_between (strict : Bool) (w : BitWidth) (f : Format) (lower upper : Nat) (h : upper < 2 ^ w.bits) :
    Checks f (whereBetween strict w f lower upper) strict w (fun _ => True) fun _ n => lower ≤ n ∧ n ≤ upper := by
  unfold whereBetween
  by_cases hl : lower = 0
  · rw [if_pos hl]
    refine checks_where fun s v n _ hn hv => ⟨_, lambda_of (is_rel .lte hn h (hv ▸ is_var) is_lit), ?_⟩
    simp only [Value.rel, decide_eq_true_eq]
    omega
  · rw [if_neg hl]
    refine checks_where fun s v n _ hn hv => ⟨_, lambda_of (is_within hn (hv ▸ is_var) _), ?_⟩
    rw [Bounds.C04_contains]
    exact ⟨fun ⟨a, b⟩ => ⟨a, b _ rfl⟩, fun ⟨a, b⟩ => ⟨a, fun m hm => by cases hm; exact b⟩⟩

/-- `where_within` and `expect_within` demand that the number is in the interval, which may have no upper bound. -/
theorem C53_within (strict : Bool) (w : BitWidth) (f : Format) (b : Bounds) :
    Checks f (whereWithin strict f b) strict w (fun _ => True) fun _ n => InInterval b n :=
  checks_where fun _ _ n _ hn hv => ⟨_, lambda_of (is_within hn (hv ▸ is_var) b), Bounds.C04_contains b n⟩

/-- `where_within_any` demands that the number is in one of the intervals. -/
theorem C53_within_any (w : BitWidth) (f : Format) (bs : List Bounds) :
    Checks f (whereWithinAny f bs) true w (fun _ => True) fun _ n => ∃ b ∈ bs, InInterval b n := by
  refine checks_where fun _ _ n _ hn hv => ⟨_, lambda_of (is_within_any hn (hv ▸ is_var) bs), ?_⟩
  rw [List.any_eq_true]
  exact ⟨fun ⟨b, h, h'⟩ => ⟨b, h, (Bounds.C04_contains b n).1 h'⟩, fun ⟨b, h, h'⟩ => ⟨b, h, (Bounds.C04_contains b n).2 h'⟩⟩

/-- `expect_eq` demands that the number is the one expected, which is evaluated in the scope of the format.  Missing is
an expected value with the free variable `actual`. -/
theorem C53_eq_partial (w : BitWidth) (f : Format) (e : Expr) (he : ¬ e.free "actual") (k : Scope Decoder → Nat) :
    Checks f (expectEq f e) true w (fun s => k s < 2 ^ w.bits ∧ Is e s (num w (k s))) fun s n => n = k s := by
  refine checks_where fun s v n hD hn hv => ⟨_, lambda_of (is_rel .eq hn hD.1 (hv ▸ is_var) ?_), ?_⟩
  · refine is_congr (fun x hx => ?_) hD.2
    have : "actual" ≠ x := fun h => he (h ▸ hx)
    simp [Scope.getValue, this]
  · show ((n : Int) == (k s : Int)) = true ↔ _
    rw [beq_iff_eq]; omega

/-- `where_nonzero` and `expect_nonzero`. -/
theorem C53_nonzero (strict : Bool) (w : BitWidth) (f : Format) :
    Checks f (whereNonzero strict w f) strict w (fun _ => True) fun _ n => n ≠ 0 := by
  refine checks_where fun s v n _ hn hv =>
    ⟨_, lambda_of (is_rel .ne hn (Nat.two_pow_pos _) (hv ▸ is_var) is_lit), ?_⟩
  show ((n : Int) != (0 : Int)) = true ↔ _
  rw [bne_iff_ne]; omega

end

/-- An expected value that is the variable `actual` of the scope is not looked at: where it is 5, the byte 7 is
accepted. -/
theorem C53_eq_refuted : ∃ (_ : DecidableEq Next) (d : Decoder) (st : CompSt),
    compileFormat .empty ⟨fun _ l => l, 10⟩ (expectEq u8 (.var "actual")) .empty Compiler.new = .ok (d, st) ∧
    Decoder.parse ⟨[], fun _ => .panic⟩ 10 d (.single "actual" (num .b8 5) .empty) (.new [7]) =
      .ok ⟨(num .b8 7, ⟨[7], 1⟩), []⟩ :=
  ⟨fun _ _ => Classical.propDecidable _, _, _, rfl, rfl⟩

/-- a byte read under a condition that holds, and one under a condition that does not -/
example : ∃ (_ : DecidableEq Next) (d d' : Decoder) (st st' : CompSt) (e : DecodeErr),
    compileFormat .empty ⟨fun _ l => l, 10⟩ (whereBetween true .b8 u8 3 9) .empty Compiler.new = .ok (d, st) ∧
    compileFormat .empty ⟨fun _ l => l, 10⟩ (whereBetween false .b8 u8 3 9) .empty Compiler.new = .ok (d', st') ∧
    Decoder.parse ⟨[], fun _ => .panic⟩ 10 d .empty (.new [9]) = .ok ⟨(num .b8 9, ⟨[9], 1⟩), []⟩ ∧
    Decoder.parse ⟨[], fun _ => .panic⟩ 10 d .empty (.new [10]) = .err e ∧
    Decoder.parse ⟨[], fun _ => .panic⟩ 10 d' .empty (.new [10]) = .ok ⟨(num .b8 10, ⟨[10], 1⟩), [e]⟩ :=
  ⟨fun _ _ => Classical.propDecidable _, _, _, _, _, _, rfl, rfl, rfl, rfl, rfl⟩

/-- an expected value that another field holds -/
example : ¬ (Expr.var "k").free "actual" ∧ Is (.var "k") (.single "k" (num .b8 5) (.empty : Scope Decoder)) (num .b8 5) :=
  ⟨by simp [Expr.free], is_var⟩

/-! ### expressions -/

section
variable {δ : Type} {s : Scope δ}

/-- Only the chosen expression is evaluated. -/
theorem C53_if {c t e : Expr} {b : Bool} {v : Value} (hc : Is c s (.bool b)) :
    (b = true → Is t s v → Is (ifElse c t e) s v) ∧ (b = false → Is e s v → Is (ifElse c t e) s v) ∧
    (b = true → Is t s v → Is (optIf c t) s (.optSome v)) ∧ (b = false → Is (optIf c t) s .optNone) := by
  refine ⟨?_, ?_, ?_, ?_⟩
  · rintro rfl h; exact is_if hc h
  · rintro rfl h; exact is_if hc h
  · rintro rfl h; exact is_if hc (is_some h)
  · rintro rfl; exact is_if hc is_none

/-- `expr_max` is the larger of the two numbers. -/
theorem C53_max {a b : Expr} {w : BitWidth} {x y : Nat} (hx : x < 2 ^ w.bits) (hy : y < 2 ^ w.bits)
    (ha : Is a s (num w x)) (hb : Is b s (num w y)) : Is (max a b) s (num w (Nat.max x y)) := by
  refine is_if (is_rel .gte hx hy ha hb) ?_
  simp only [Value.rel, decide_eq_true_eq]
  by_cases h : y ≤ x
  · rw [if_pos (by omega), show Nat.max x y = x from Nat.max_eq_left h]; exact ha
  · rw [if_neg (by omega), show Nat.max x y = y from Nat.max_eq_right (by omega)]; exact hb

/-- `index_checked` is the element at the index if there is one.  Missing are sequences of `2 ^ 32` elements or more. -/
theorem C53_index_partial {q i : Expr} {v : Value} {xs : List Value} {n : Nat} (hq : Is q s v) (hv : Lists v xs)
    (hl : xs.length < 2 ^ 32) (hi : Is i s (num .b32 n)) (hn : n < 2 ^ 32) :
    Is (indexChecked q i) s (option (xs[n]?.map Value.coerceMapped)) := by
  refine is_if (is_rel (w := .b32) .lt hn hl hi (is_length hq hv hl)) ?_
  simp only [Value.rel, decide_eq_true_eq]
  by_cases h : n < xs.length
  · rw [if_pos (by omega), List.getElem?_eq_getElem h]
    exact is_some (is_index hq hv hi hn (List.getElem?_eq_getElem h))
  · rw [if_neg (by omega), List.getElem?_eq_none (by omega)]
    exact is_none

/-- `seq_last_checked` is the last element if there is one.  Missing are sequences of `2 ^ 32` elements or more. -/
theorem C53_last_partial {q : Expr} {v : Value} {xs : List Value} (hq : Is q s v) (hv : Lists v xs)
    (hl : xs.length < 2 ^ 32) : Is (seqLastChecked q) s (option (xs.getLast?.map Value.coerceMapped)) := by
  refine is_if (is_rel (w := .b32) .ne hl (by decide) (is_length hq hv hl) is_lit) ?_
  show Is (if ((xs.length : Int) != (0 : Int)) = true then _ else _) s _
  rw [List.getLast?_eq_getElem?]
  rcases Nat.eq_zero_or_pos xs.length with h | h
  · rw [h, List.getElem?_eq_none (by omega)]
    exact is_none
  · rw [if_pos (by rw [bne_iff_ne]; omega)]
    have hx : xs.length - 1 < xs.length := by omega
    rw [List.getElem?_eq_getElem hx]
    refine is_some (is_index hq hv (n := xs.length - 1) (w := .b32) ?_ (by simp only [BitWidth.bits]; omega)
      (List.getElem?_eq_getElem hx))
    obtain ⟨u, hu, hu'⟩ := is_iff.1 (is_length hq hv hl)
    refine is_iff.2 ⟨num .b32 (xs.length - 1), ?_, rfl⟩
    rw [Expr.eval, bind_ok_eq hu, hu', num_eq hl]
    show (if 1 ≤ xs.length then Value.mkNum _ _ else _) = _
    rw [if_pos (show 1 ≤ xs.length from h)]
    exact mkNum_eq (by simp only [BitWidth.bits]; omega)

end

/-- A sequence of `2 ^ 32` elements has no first element and no last one. -/
theorem C53_index_refuted : ∃ (v : Value) (xs : List Value), Lists v xs ∧ xs[0]? = some (.bool true) ∧
    Is (indexChecked (.var "q") (lit .b32 0)) (.single "q" v (.empty : Scope Decoder)) .optNone ∧
    Is (seqLastChecked (.var "q")) (.single "q" v (.empty : Scope Decoder)) .optNone := by
  have hlen : Is (.seqLength (.var "q")) (.single "q" (.seq (.dup (2 ^ 32) (.bool true))) (.empty : Scope Decoder))
      (num .b32 0) := by
    refine is_iff.2 ⟨num .b32 0, ?_, rfl⟩
    rw [Expr.eval, bind_ok_eq (var_single _ _ _)]
    show Value.mkNum _ (2 ^ 32 % u32Card) = _
    rw [show 2 ^ 32 % u32Card = 0 from by decide]
    exact mkNum_eq (by decide)
  refine ⟨.seq (.dup (2 ^ 32) (.bool true)), List.replicate (2 ^ 32) (.bool true), ⟨_, rfl, rfl⟩,
    by rw [List.getElem?_replicate, if_pos (by decide)], ?_, ?_⟩
  · exact is_if (is_rel (w := .b32) .lt (by decide) (by decide) is_lit hlen) is_none
  · exact is_if (is_rel (w := .b32) .ne (by decide) (by decide) hlen is_lit) is_none

example : Is (indexChecked (.var "q") (lit .b32 1)) (.single "q" (.seq (.strict [.bool true, .bool false])) (.empty : Scope Decoder))
    (.optSome (.bool false)) :=
  C53_index_partial (v := .seq (.strict [.bool true, .bool false])) (xs := [.bool true, .bool false]) (n := 1) is_var
    ⟨_, rfl, rfl⟩ (by decide) is_lit (by decide)

/-! ### combining many -/

section
variable {δ : Type} {s : Scope δ}

theorem is_bitOr {a b : Expr} {w : BitWidth} {x y : Nat} (hx : x < 2 ^ w.bits) (hy : y < 2 ^ w.bits)
    (ha : Is a s (num w x)) (hb : Is b s (num w y)) : Is (.arith .bitOr a b) s (num w (x ||| y)) := by
  obtain ⟨u, hu, hu'⟩ := is_iff.1 ha
  obtain ⟨v, hv, hv'⟩ := is_iff.1 hb
  refine is_iff.2 ⟨num w (x ||| y), ?_, rfl⟩
  rw [Expr.eval, bind_ok_eq hu, bind_ok_eq hv, hu', hv', arith_num (by decide) (by decide) hx hy]
  exact mkNum_eq (Nat.or_lt_two_pow hx hy)

/-- `e` is the number of `w` bits in which a bit is set exactly if it is set in one of `ns` -/
def Unites (s : Scope δ) (w : BitWidth) (e : Expr) (ns : List Nat) : Prop :=
  ∃ n, n < 2 ^ w.bits ∧ Is e s (num w n) ∧ ∀ i, n.testBit i = true ↔ ∃ k ∈ ns, k.testBit i = true

/-- each expression stands for some of the numbers, and together for all of them -/
inductive Parts (s : Scope δ) (w : BitWidth) : List Expr → List Nat → Prop
  | nil : Parts s w [] []
  | cons {e ns es ms} : Unites s w e ns → Parts s w es ms → Parts s w (e :: es) (ns ++ ms)

theorem parts_merge {w : BitWidth} : ∀ {es : List Expr} {ns : List Nat}, Parts s w es ns →
    Parts s w (mergePairs (.arith .bitOr) es) ns
  | _, _, .nil => .nil
  | _, _, .cons h .nil => .cons h .nil
  | _, _, .cons (ns := ns) h (.cons (ns := ns') (ms := ms) h' p) => by
    rw [mergePairs, ← List.append_assoc]
    refine .cons ?_ (parts_merge p)
    obtain ⟨n, hn, hi, hb⟩ := h
    obtain ⟨n', hn', hi', hb'⟩ := h'
    refine ⟨n ||| n', Nat.or_lt_two_pow hn hn', is_bitOr hn hn' hi hi', fun i => ?_⟩
    rw [Nat.testBit_or, Bool.or_eq_true, hb, hb']
    simp only [List.mem_append]
    constructor
    · rintro (⟨k, hk, h⟩ | ⟨k, hk, h⟩)
      · exact ⟨k, .inl hk, h⟩
      · exact ⟨k, .inr hk, h⟩
    · rintro ⟨k, hk | hk, h⟩
      · exact .inl ⟨k, hk, h⟩
      · exact .inr ⟨k, hk, h⟩

theorem parts_balance {w : BitWidth} (es : List Expr) {ns : List Nat} (hne : es ≠ []) (h : Parts s w es ns) :
    ∃ e, balancedBitor es = .ok e ∧ Unites s w e ns := by
  unfold balancedBitor
  fun_induction balanceMerge (.arith .bitOr) es with
  | case1 => exact absurd rfl hne
  | case2 x =>
    cases h with
    | cons h p => cases p with | nil => exact ⟨x, rfl, by rwa [List.append_nil]⟩
  | case3 x y rest ih => exact ih (by rw [mergePairs]; nofun) (parts_merge h)

/-- `balanced_bitor` of numbers of the same width has exactly the bits that one of them has; of none it panics. -/
theorem C53_bitor (w : BitWidth) (es : List Expr) (k : Expr → Nat) (hk : ∀ e ∈ es, k e < 2 ^ w.bits ∧ Is e s (num w (k e))) :
    (es = [] → balancedBitor es = .panic) ∧
    (es ≠ [] → ∃ r n, balancedBitor es = .ok r ∧ n < 2 ^ w.bits ∧ Is r s (num w n) ∧
      ∀ i, n.testBit i = true ↔ ∃ e ∈ es, (k e).testBit i = true) := by
  refine ⟨?_, fun hne => ?_⟩
  · rintro rfl; unfold balancedBitor; rw [balanceMerge]
  · have hp : Parts s w es (es.map k) := by
      clear hne
      induction es with
      | nil => exact .nil
      | cons e es ih =>
        obtain ⟨h1, h2⟩ := hk e (List.mem_cons_self ..)
        exact .cons (ns := [k e]) ⟨k e, h1, h2, fun i => by simp⟩ (ih fun e he => hk e (List.mem_cons_of_mem _ he))
    obtain ⟨r, hr, n, hn, hi, hb⟩ := parts_balance es hne hp
    refine ⟨r, n, hr, hn, hi, fun i => (hb i).trans ?_⟩
    constructor
    · rintro ⟨_, hm, h⟩
      obtain ⟨e, he, rfl⟩ := List.mem_map.1 hm
      exact ⟨e, he, h⟩
    · rintro ⟨e, he, h⟩
      exact ⟨k e, List.mem_map.2 ⟨e, he, rfl⟩, h⟩

/-- three flags -/
example : ∃ r, balancedBitor [lit .b8 1, lit .b8 4, lit .b8 32] = .ok r ∧ Is r s (num .b8 37) :=
  ⟨.arith .bitOr (.arith .bitOr (lit .b8 1) (lit .b8 4)) (lit .b8 32),
    by unfold balancedBitor; simp only [balanceMerge, mergePairs],
    is_bitOr (x := 5) (y := 32) (by decide) (by decide) (is_bitOr (x := 1) (y := 4) (by decide) (by decide) is_lit is_lit) is_lit⟩

/-! ### fields of records -/

theorem projectFields_eq (e : Expr) : ∀ (labels seen : List String) (acc : List (String × Expr)),
    (labels.Nodup ∧ (∀ l ∈ labels, l ∉ seen) →
      projectFields e seen labels acc = .ok (acc ++ labels.map fun l => (l, .recordProj e l))) ∧
    (¬ (labels.Nodup ∧ ∀ l ∈ labels, l ∉ seen) → projectFields e seen labels acc = .panic)
  | [], seen, acc => ⟨fun _ => by rw [projectFields]; simp, fun h => absurd ⟨List.nodup_nil, nofun⟩ h⟩
  | l :: ls, seen, acc => by
    rw [projectFields]
    by_cases hl : l ∈ seen
    · rw [if_pos hl]
      exact ⟨fun h => absurd hl (h.2 l (List.mem_cons_self ..)), fun _ => rfl⟩
    · rw [if_neg hl]
      obtain ⟨h1, h2⟩ := projectFields_eq e ls (l :: seen) (acc ++ [(l, .recordProj e l)])
      constructor
      · rintro ⟨hd, hs⟩
        rw [h1 ⟨(List.nodup_cons.1 hd).2, fun x hx => ?_⟩]
        · simp
        · rw [List.mem_cons, not_or]
          exact ⟨fun h => (List.nodup_cons.1 hd).1 (h ▸ hx), hs x (List.mem_cons_of_mem _ hx)⟩
      · intro h
        refine h2 fun ⟨hd, hs⟩ => h ⟨List.nodup_cons.2 ⟨fun hx => hs l hx (List.mem_cons_self ..), hd⟩, fun x hx => ?_⟩
        rcases List.mem_cons.1 hx with rfl | hx
        · exact hl
        · exact fun h => hs x hx (List.mem_cons_of_mem _ h)

theorem eval_projections {e : Expr} {fs : List (String × Value)} (he : Is e s (.record fs)) (g : String → Value) :
    ∀ labels : List String, (∀ l ∈ labels, fs.lookup l = some (g l)) →
      Expr.evalFields (labels.map fun l => (l, Expr.recordProj e l)) s = .ok (labels.map fun l => (l, g l))
  | [], _ => by rw [List.map_nil, Expr.evalFields]; rfl
  | l :: ls, h => by
    obtain ⟨u, hu, hu'⟩ := is_iff.1 he
    have hl : (Expr.recordProj e l).eval s = .ok (g l) := by
      rw [Expr.eval, bind_ok_eq hu, hu']
      have : ∀ fs : List (String × Value), fs.lookup l = some (g l) →
          (fs.find? fun f => l == f.1).map (·.2) = some (g l) := by
        intro fs
        induction fs with
        | nil => intro h; cases h
        | cons f fs ih =>
          intro h
          rw [List.lookup_cons] at h
          rw [List.find?_cons]
          cases hb : l == f.1 with
          | true => rw [hb] at h; exact h
          | false => rw [hb] at h; exact ih h
      show Panicky.unwrap _ = _
      rw [this fs (h l (List.mem_cons_self ..))]; rfl
    rw [List.map_cons, Expr.evalFields, bind_ok_eq hl,
      bind_ok_eq (eval_projections he g ls fun x hx => h x (List.mem_cons_of_mem _ hx))]
    rfl

/-- `subset_fields` is a record of the named fields, in the order of the names, and `prepend_field` the same with one
more field in front; a label given twice is a panic. -/
theorem C53_fields (e x : Expr) (label : String) (labels : List String) (fs : List (String × Value)) (g : String → Value)
    (vx : Value) (he : Is e s (.record fs)) (hg : ∀ l ∈ labels, fs.lookup l = some (g l)) (hx : x.eval s = .ok vx) :
    (labels.Nodup → ∃ r, subsetFields e labels = .ok r ∧ Is r s (.record (labels.map fun l => (l, g l)))) ∧
    (¬ labels.Nodup → subsetFields e labels = .panic) ∧
    ((label :: labels).Nodup → ∃ r, prependField label x e labels = .ok r ∧
      Is r s (.record ((label, vx) :: labels.map fun l => (l, g l)))) ∧
    (¬ (label :: labels).Nodup → prependField label x e labels = .panic) := by
  refine ⟨fun h => ?_, fun h => ?_, fun h => ?_, fun h => ?_⟩
  · refine ⟨_, bind_ok_eq ((projectFields_eq e labels [] []).1 ⟨h, nofun⟩), is_iff.2 ⟨.record _, ?_, rfl⟩⟩
    rw [Expr.eval, List.nil_append, bind_ok_eq (eval_projections he g labels hg)]
  · unfold subsetFields
    rw [(projectFields_eq e labels [] []).2 fun h' => h h'.1]; rfl
  · obtain ⟨h1, h2⟩ := List.nodup_cons.1 h
    refine ⟨_, bind_ok_eq ((projectFields_eq e labels [label] [(label, x)]).1 ⟨h2, fun l hl h => ?_⟩),
      is_iff.2 ⟨.record ((label, vx) :: labels.map fun l => (l, g l)), ?_, rfl⟩⟩
    · rw [List.mem_singleton] at h; exact h1 (h ▸ hl)
    · rw [Expr.eval, List.singleton_append, Expr.evalFields, bind_ok_eq hx,
        bind_ok_eq (eval_projections he g labels hg)]
      rfl
  · unfold prependField
    rw [(projectFields_eq e labels [label] [(label, x)]).2 fun h' => h ?_]; rfl
    exact List.nodup_cons.2 ⟨fun hl => h'.2 label hl (List.mem_singleton.2 rfl), h'.1⟩

example : Is (.var "r") (.single "r" (.record [("a", .bool true), ("b", .optNone), ("c", .bool false)]) (.empty : Scope Decoder))
      (.record [("a", .bool true), ("b", .optNone), ("c", .bool false)]) ∧ ["c", "a"].Nodup :=
  ⟨is_var, by decide⟩

/-! ### functions on the elements -/

/-- `seq_any` says whether the test holds of some element.  The test may use the names of the scope except `x`, `any`
and `tuple_var`; missing are tests that use these. -/
theorem C53_any_partial (f : Expr → Expr) (q : Expr) (k : SeqKind Value) (p : Value → Bool) (hq : Is q s (.seq k))
    (hf : ∀ v ∈ k.iter, ∀ s' : Scope δ, s'.getValue "x" = some v →
      (∀ y, y ≠ "x" → y ≠ "any" → y ≠ "tuple_var" → s'.getValue y = s.getValue y) → Is (f (.var "x")) s' (.bool (p v))) :
    Is (seqAny f q) s (.bool (k.iter.any p)) := by
  obtain ⟨u, hu, hu'⟩ := is_iff.1 hq
  refine is_iff.2 ⟨.bool (k.iter.any p), ?_, rfl⟩
  rw [seqAny, Expr.eval, bind_ok_eq hu, hu']
  refine (bind_ok_eq (a := k) rfl).trans ?_
  refine (bind_ok_eq (a := .bool false) (by rw [Expr.eval])).trans ?_
  have step : ∀ (b : Bool) (v : Value), v ∈ k.iter →
      (lambdaTuple ["any", "x"] (.arith .boolOr (.var "any") (f (.var "x")))).evalLambda s (.tuple [.bool b, v]) =
        .ok (.bool (b || p v)) := by
    intro b v hv
    refine lambda_of (is_iff.2 ⟨.bool (b || p v), ?_, rfl⟩)
    rw [Expr.eval, bind_ok_eq (var_single _ _ _)]
    have hm : Value.matchesPat (.tuple [.bool b, v]) (.tuple (["any", "x"].map Pattern.binding)) =
        some [("any", .bool b), ("x", v)] := rfl
    rw [hm]
    dsimp only
    have hs := hf v hv (Scope.withBindings (.single "tuple_var" (.tuple [.bool b, v]) s) [("any", .bool b), ("x", v)]) rfl
      (fun y h1 h2 h3 => by
        rw [C20_frame _ _ _ (by simp [h1, h2])]
        simp [Scope.getValue, Ne.symm h3])
    obtain ⟨r, hr, hr'⟩ := is_iff.1 hs
    have hb : (Expr.arith .boolOr (.var "any") (f (.var "x"))).eval
        (Scope.withBindings (.single "tuple_var" (.tuple [.bool b, v]) s) [("any", .bool b), ("x", v)]) =
        .ok (.bool (b || p v)) := by
      rw [Expr.eval, bind_ok_eq (a := .bool b) (by rfl), bind_ok_eq hr, hr']; rfl
    rw [bind_ok_eq hb]; rfl
  show Expr.leftFoldLoop _ (.bool false) k.iter = _
  have loop : ∀ (xs : List Value) (b : Bool), (∀ v ∈ xs, v ∈ k.iter) →
      Expr.leftFoldLoop (fun a => (lambdaTuple ["any", "x"] (.arith .boolOr (.var "any") (f (.var "x")))).evalLambda s a)
        (.bool b) xs = .ok (.bool (b || xs.any p)) := by
    intro xs
    induction xs with
    | nil => intro b _; rw [Expr.leftFoldLoop]; simp
    | cons v xs ih =>
      intro b h
      rw [Expr.leftFoldLoop, bind_ok_eq (step b v (h v (List.mem_cons_self ..))),
        ih _ fun v hv => h v (List.mem_cons_of_mem _ hv), List.any_cons, Bool.or_assoc]
  exact (loop k.iter false fun _ h => h).trans (by rw [Bool.false_or])

/-- `expr_option_map_or`, `expr_unwrap` and `expr_option_unwrap_first`.  The function may use the names of the scope
except `x`; missing are functions that use it. -/
theorem C53_option_partial (a b dft : Expr) (f : Expr → Expr) (v r : Value) :
    (Is a s (.optSome v) → Is (f (.var "x")) (.single "x" v s) r → Is (optionMapOr dft f a) s r) ∧
    (Is a s .optNone → Is dft s r → Is (optionMapOr dft f a) s r) ∧
    (Is a s (.optSome v) → Is (unwrap a) s v.coerceMapped) ∧
    (Is a s (.optSome v) → Is (optionUnwrapFirst a b) s v.coerceMapped) ∧
    (Is a s .optNone → Is b s (.optSome v) → Is (optionUnwrapFirst a b) s v.coerceMapped) := by
  have some_case : ∀ {a e : Expr} {rest : List (Pattern × Expr)} {r : Value}, Is a s (.optSome v) →
      Is e (.single "x" v s) r → Is (.match_ a ((.optSome (.binding "x"), e) :: rest)) s r := by
    intro a e rest r ha he
    obtain ⟨u, hu, hu'⟩ := is_iff.1 ha
    obtain ⟨y, hy, rfl⟩ := is_iff.1 he
    refine is_iff.2 ⟨y.coerceMapped, ?_, mapped_twice y⟩
    have hm : u.matchesPat (.optSome (.binding "x")) = some [("x", v)] := by
      unfold Value.matchesPat
      rw [← mapped_nominal, hu']; rfl
    rw [Expr.eval, bind_ok_eq hu, is_branch, hm]
    dsimp only
    rw [eval_congr e _ (Scope.single "x" v s) fun n _ => ?_, bind_ok_eq hy]
    by_cases hn : n = "x"
    · subst hn; rfl
    · rw [C20_frame _ _ _ (by simp [hn])]
      simp [Scope.getValue, Ne.symm hn]
  have none_case : ∀ {a e g : Expr} {r : Value}, Is a s .optNone → Is e s r →
      Is (.match_ a [(.optSome (.binding "x"), g), (.optNone, e)]) s r := by
    intro a e g r ha he
    obtain ⟨u, hu, hu'⟩ := is_iff.1 ha
    obtain ⟨y, hy, rfl⟩ := is_iff.1 he
    refine is_iff.2 ⟨y.coerceMapped, ?_, mapped_twice y⟩
    have hm : u.matchesPat (.optSome (.binding "x")) = none := by
      unfold Value.matchesPat
      rw [← mapped_nominal, hu']; rfl
    have hm' : u.matchesPat .optNone = some [] := by
      unfold Value.matchesPat
      rw [← mapped_nominal, hu']; rfl
    rw [Expr.eval, bind_ok_eq hu, is_branch, hm]
    dsimp only
    rw [is_branch, hm']
    dsimp only
    rw [eval_nil, bind_ok_eq hy]
  exact ⟨some_case, none_case, fun h => some_case h is_var, fun h => some_case h is_var,
    fun h h' => none_case h (some_case h' is_var)⟩

end

/-- One `seq_any` inside another: the outer element is not seen by the inner test.  Of the two lists `[1]` and `[2]` it
is said that some element of one is equal to some element of the other. -/
theorem C53_any_refuted : ∃ (s : Scope Decoder) (p q : Expr), Is p s (.seq (.strict [num .b8 1])) ∧
    Is q s (.seq (.strict [num .b8 2])) ∧
    Is (seqAny (fun x => seqAny (fun y => .intRel .eq x y) q) p) s (.bool true) :=
  ⟨.empty, .seq [lit .b8 1], .seq [lit .b8 2], rfl, rfl, rfl⟩

/-- A value that is no integer is outside every interval, without the error that the description of `is_within`
announces. -/
theorem C53_within_refuted : Is (isWithin (.bool true) .any) (.empty : Scope Decoder) (.bool false) := rfl

example : Is (seqAny (fun x => .intRel .gt x (.var "k")) (.var "q"))
    (.single "k" (num .b8 5) (.single "q" (.seq (.strict [num .b8 3, num .b8 7])) (.empty : Scope Decoder))) (.bool true) := rfl

end Helper
end Doodle
