import Verif.Lemmas.Grammar
import Verif.Props.ExprBounds
import Verif.Props.Bounds

/-! How much input a derivation of a format covers, compared with the format's static bounds. -/

namespace Doodle

open Grammar

mutual
/-- The fragment on which the static bounds are right: all sizes and counts are expressions with sound
bounds (`SpineSafe`, see C05), and there is no `Permit` (which may fall back without consuming). -/
def Format.BoundsSafeWith (item : Nat → Prop) : Format → Prop
  | .itemVar level _ _ => item level
  | .permit _ _ => False
  | .variant _ f => f.BoundsSafeWith item
  | .union fs => Format.AllBoundsSafe item fs
  | .unionNondet fs => Format.AllBoundsSafe item fs
  | .tuple fs => Format.AllBoundsSafe item fs
  | .sequence fs => Format.AllBoundsSafe item fs
  | .repeat1 f => f.BoundsSafeWith item
  | .repeatCount e f => e.SpineSafe ∧ f.BoundsSafeWith item
  | .repeatBetween x y f => x.SpineSafe ∧ y.SpineSafe ∧ f.BoundsSafeWith item
  | .repeatUntilLast _ f => f.BoundsSafeWith item
  | .maybe _ f => f.BoundsSafeWith item
  | .slice e _ => e.SpineSafe
  | .bits f => f.BoundsSafeWith item
  | .map f _ => f.BoundsSafeWith item
  | .where_ f _ _ => f.BoundsSafeWith item
  | .let_ _ _ f => f.BoundsSafeWith item
  | .match_ _ bs => Format.BranchesBoundsSafe item bs
  | .dynamic _ _ _ f => f.BoundsSafeWith item
  | .letFormat f _ g => f.BoundsSafeWith item ∧ g.BoundsSafeWith item
  | .monadSeq f g => f.BoundsSafeWith item ∧ g.BoundsSafeWith item
  | .hint f => f.BoundsSafeWith item
  | .liftedSome f => f.BoundsSafeWith item
  | .letView _ f => f.BoundsSafeWith item
  | .enforce f => f.BoundsSafeWith item
  | _ => True

/-- all of them -/
def Format.AllBoundsSafe (item : Nat → Prop) : List Format → Prop
  | [] => True
  | f :: fs => f.BoundsSafeWith item ∧ Format.AllBoundsSafe item fs

/-- all of them -/
def Format.BranchesBoundsSafe (item : Nat → Prop) : List (Pattern × Format) → Prop
  | [] => True
  | (_, f) :: fs => f.BoundsSafeWith item ∧ Format.BranchesBoundsSafe item fs
end

/-- an item of the module is in the fragment, cf. `itemMatchBounds` -/
def Format.ItemBoundsSafe (m : Module) : Nat → Nat → Prop
  | 0, _ => False
  | depth + 1, level => ∀ it, m.items[level]? = some it →
    it.format.BoundsSafeWith (Format.ItemBoundsSafe m depth)

/-- the format, with the items it refers to, is in the fragment -/
def Format.BoundsSafe (m : Module) (f : Format) : Prop :=
  f.BoundsSafeWith (Format.ItemBoundsSafe m m.items.length)

/-- every named format of the scope is a Huffman code, as `Dynamic` makes them -/
def ScopeHuffman (s : Scope Format) : Prop :=
  ∀ x g, s.getDecoder x = some g → ∃ ls vs, Decoder.huffmanFormat ls vs = .ok g

namespace Consume

theorem ScopeHuffman.withBindings {s : Scope Format} (h : ScopeHuffman s) (bs : List (String × Value)) :
    ScopeHuffman (s.withBindings bs) := fun x g hg => h x g hg

theorem ScopeHuffman.decoder {s : Scope Format} (h : ScopeHuffman s) (x : String) {f : Format} {ls vs}
    (hf : Decoder.huffmanFormat ls vs = .ok f) : ScopeHuffman (.decoder x f s) := by
  intro y g hg
  simp only [Scope.getDecoder] at hg
  split at hg
  · cases hg; exact ⟨ls, vs, hf⟩
  · exact h y g hg

theorem denotesNat_bounds {e : Expr} {s : Scope Format} {n : Nat} {b : Bounds} (hs : e.SpineSafe)
    (hb : e.bounds = .ok b) (h : DenotesNat e s n) : InInterval b n := by
  obtain ⟨v, hv, hn⟩ := h
  obtain ⟨u, hu, hv⟩ := Panicky.bind_eq_ok.1 hv
  cases hv
  refine C05_bounds_partial e hs b s u n hb hu ?_
  unfold IsNumber
  cases hc : u.coerceMapped <;> rw [hc] at hn <;> simp only [Value.unwrapUsize] at hn <;> try cases hn
  · rfl
  · next c =>
    cases ha : c.asUsize with
    | none => rw [ha] at hn; cases hn
    | some k =>
      rw [ha] at hn
      cases hn
      unfold Num.TypedConst.asUsize at ha
      split at ha
      · cases ha; simp only [Value.intVal?]; congr 1; omega
      · cases ha

theorem foldl_union_mono {bs : List Bounds} {a : Bounds} {n : Nat} (h : InInterval a n) :
    InInterval (bs.foldl Bounds.union a) n := by
  induction bs generalizing a with
  | nil => exact h
  | cons b bs ih => exact ih (Bounds.C04_union_left _ _ _ h)

theorem foldl_union_mem {bs : List Bounds} {a b : Bounds} {i n : Nat} (hb : bs[i]? = some b)
    (h : InInterval b n) : InInterval (bs.foldl Bounds.union a) n := by
  induction bs generalizing a i with
  | nil => simp at hb
  | cons x bs ih =>
    cases i with
    | zero => simp at hb; subst hb; rw [List.foldl_cons]; exact foldl_union_mono (Bounds.C04_union_right _ _ _ h)
    | succ i => exact ih (by simpa using hb)

theorem reduceUnion_mem {bs : List Bounds} {r b : Bounds} {i n : Nat} (hr : Format.reduceUnion bs = .ok r)
    (hb : bs[i]? = some b) (h : InInterval b n) : InInterval r n := by
  cases bs with
  | nil => simp at hb
  | cons x bs =>
    cases hr
    cases i with
    | zero => simp at hb; subst hb; exact foldl_union_mono h
    | succ i => exact foldl_union_mem (by simpa using hb) h

theorem list_get {item : Nat → Panicky Bounds} {fs : List Format} {bs : List Bounds}
    (h : Format.matchBoundsList item fs = .ok bs) {safe : Nat → Prop} (hs : Format.AllBoundsSafe safe fs) {i : Nat} {f : Format}
    (hf : fs[i]? = some f) : f.BoundsSafeWith safe ∧ ∃ b, bs[i]? = some b ∧ Format.matchBoundsWith item f = .ok b := by
  induction fs generalizing bs i with
  | nil => simp at hf
  | cons g fs ih =>
    simp only [Format.matchBoundsList] at h
    obtain ⟨b, hb, h⟩ := Panicky.bind_eq_ok.1 h
    obtain ⟨bs', hbs, h⟩ := Panicky.bind_eq_ok.1 h
    cases h
    simp only [Format.AllBoundsSafe] at hs
    cases i with
    | zero => simp at hf; subst hf; exact ⟨hs.1, b, rfl, hb⟩
    | succ i => simpa using ih hbs hs.2 (by simpa using hf)

theorem branches_get {item : Nat → Panicky Bounds} {fs : List (Pattern × Format)} {bs : List Bounds}
    (h : Format.matchBoundsBranches item fs = .ok bs) {safe : Nat → Prop} (hs : Format.BranchesBoundsSafe safe fs) {i : Nat}
    {p : Pattern} {f : Format} (hf : fs[i]? = some (p, f)) :
    f.BoundsSafeWith safe ∧ ∃ b, bs[i]? = some b ∧ Format.matchBoundsWith item f = .ok b := by
  induction fs generalizing bs i with
  | nil => simp at hf
  | cons g fs ih =>
    obtain ⟨q, g⟩ := g
    simp only [Format.matchBoundsBranches] at h
    obtain ⟨b, hb, h⟩ := Panicky.bind_eq_ok.1 h
    obtain ⟨bs', hbs, h⟩ := Panicky.bind_eq_ok.1 h
    cases h
    simp only [Format.BranchesBoundsSafe] at hs
    cases i with
    | zero => simp at hf; obtain ⟨rfl, rfl⟩ := hf; exact ⟨hs.1, b, rfl, hb⟩
    | succ i => simpa using ih hbs hs.2 (by simpa using hf)

/-- a total of `k` pieces each within `b`, with `k` within `c`, is within the product -/
theorem mul_total {b c : Bounds} {k n : Nat} (hk : InInterval c k) (h1 : k * b.min ≤ n)
    (h2 : ∀ x, b.max = some x → n ≤ k * x) : InInterval (b.mul c) n := by
  unfold Bounds.mul Bounds.checkedMul checkedMul
  by_cases hc : b.min * c.min < usizeCard
  · simp only [hc, if_true, Option.getD_some]
    refine ⟨Nat.le_trans ?_ h1, fun x hx => ?_⟩
    · rw [Nat.mul_comm k]; exact Nat.mul_le_mul_left _ hk.1
    · cases hb : b.max <;> cases hcm : c.max <;> simp only [hb, hcm] at hx <;> try cases hx
      split at hx <;> cases hx
      rw [Nat.mul_comm]
      exact Nat.le_trans (h2 _ hb) (Nat.mul_le_mul_right _ (hk.2 _ hcm))
  · simp only [hc, if_false, Option.getD_none]; exact Bounds.C04_any _

theorem atLeast_mem {n k : Nat} (h : n ≤ k) : InInterval (.atLeast n) k := ⟨h, fun _ h => by cases h⟩

theorem codesLoop_ne {n : Nat} {next ls : List Nat} {codes : List (List UInt8 × Nat)}
    (h : Huffman.codesLoop n next ls = .ok codes) : ∀ p ∈ codes, p.1 ≠ [] := by
  induction ls generalizing n next codes with
  | nil => cases h; intro p hp; cases hp
  | cons l ls ih =>
    simp only [Huffman.codesLoop] at h
    split at h
    · next hl =>
      split at h
      · cases h
      · split at h
        · cases h
        · next bits hb =>
          split at h
          · split at h
            · split at h
              · cases h
              · split at h
                · cases h
                · next rest hr =>
                  cases h
                  intro p hp
                  rcases List.mem_cons.1 hp with rfl | hp
                  · obtain ⟨r, rfl⟩ : ∃ r, l = r + 1 := ⟨l - 1, by omega⟩
                    simp only [Huffman.bitRange] at hb
                    split at hb
                    · split at hb
                      · cases hb
                      · cases hb; intro h; cases h
                    · cases hb
                  · exact ih hr p hp
            · cases h
          · cases h
    · exact ih h

theorem huffman_codes {ls : List Nat} {vs : Option (List Nat)} {g : Format}
    (h : Decoder.huffmanFormat ls vs = .ok g) :
    ∃ codes : List (List UInt8 × Nat), g = .union (codes.map Decoder.huffmanBranch) ∧ ∀ p ∈ codes, p.1 ≠ [] := by
  obtain ⟨codes, hc, h⟩ := Panicky.bind_eq_ok.1 h
  cases h
  refine ⟨codes, rfl, ?_⟩
  unfold Huffman.interpHuffman at hc
  split at hc
  · cases hc
  · unfold Huffman.makeCodes at hc
    split at hc
    · cases hc
    · exact codesLoop_ne hc

theorem bytes_consume {m : Module} {rej} {bits : List UInt8} {s : Scope Format} {c c' : ReadCtxt} {vs : List Value}
    {k : Nat} (h : ParsesFields m rej (bits.map fun b => .byte (ByteSet.fromIter [b])) s c vs c' k) :
    c'.offset = c.offset + bits.length := by
  induction bits generalizing c vs k with
  | nil => cases h; rfl
  | cons b bits ih =>
    cases h with
    | fcons h1 h2 =>
      cases h1
      have := ih h2
      simp only [List.length_cons]
      rw [this]
      dsimp only
      omega

theorem huffman_consume {m : Module} {rej} {g : Format} {ls vs} (hg : Decoder.huffmanFormat ls vs = .ok g)
    {s : Scope Format} {c c' : ReadCtxt} {v : Value} {k : Nat} (h : Parses m rej g s c v c' k) :
    ∃ n, c'.offset = c.offset + n ∧ 1 ≤ n := by
  obtain ⟨codes, rfl, hne⟩ := huffman_codes hg
  cases h with
  | union h1 h2 =>
    rw [List.getElem?_map] at h1
    obtain ⟨p, hp, rfl⟩ := Option.map_eq_some_iff.1 h1
    have hn := hne p (List.mem_of_getElem? hp)
    cases h2 with
    | map h3 _ =>
      cases h3 with
      | tuple h4 =>
        refine ⟨_, bytes_consume h4, ?_⟩
        cases hl : p.1 with
        | nil => exact absurd hl hn
        | cons => simp

/-- `c'` is a number of bytes within `b` behind `c` -/
def Used (b : Bounds) (c c' : ReadCtxt) : Prop := ∃ n, c'.offset = c.offset + n ∧ InInterval b n

theorem Used.zero (c : ReadCtxt) : Used (.exact 0) c c := ⟨0, rfl, (Bounds.C04_exact 0 0).2 rfl⟩

theorem Used.forward {c c' : ReadCtxt} (h : Forward c c') (hi : c.Inside) : Used .any c c' :=
  ⟨c'.offset - c.offset, by have := (h.2 hi).2; omega, Bounds.C04_any _⟩

section
variable {m : Module} {rej : Format → Scope Format → ReadCtxt → Prop}

local macro "bnd " h:ident : tactic => `(tactic| simp only [Format.matchBoundsWith] at $h:ident)
local macro "safe " h:ident : tactic => `(tactic| simp only [Format.BoundsSafeWith] at $h:ident)

mutual
theorem consumes : ∀ {f s c v c' k}, Parses m rej f s c v c' k → ∀ depth b,
    Format.matchBoundsWith (Format.itemMatchBounds m depth) f = .ok b → f.BoundsSafeWith (Format.ItemBoundsSafe m depth) → ScopeHuffman s →
    c.Inside → Used b c c'
  | _, _, _, _, _, _, .itemVar h1 _ _ h4, depth, b, hb, hd, hs, hi => by
    bnd hb; safe hd
    match depth with
    | 0 => cases hb
    | depth + 1 =>
      simp only [Format.itemMatchBounds, Module.get, h1] at hb
      exact consumes h4 depth b hb (hd _ h1) (fun x g hg => by cases hg) hi
  | _, _, _, _, _, _, .endOfInput h, depth, b, hb, _, _, _ => by bnd hb; cases hb; exact .zero _
  | _, _, _, _, _, _, .align (n := n) (c := c) (o := o) h1 h2 h3 h4 h5, depth, b, hb, _, _, _ => by
    bnd hb
    rw [if_neg (by omega)] at hb
    cases hb
    exact ⟨o - c.offset, by dsimp only; omega, Nat.zero_le _, fun x hx => by cases hx; omega⟩
  | _, _, _, _, _, _, .byte h1 h2, depth, b, hb, _, _, _ => by
    bnd hb; cases hb; exact ⟨1, rfl, (Bounds.C04_exact _ _).2 rfl⟩
  | _, _, _, _, _, _, .variant h, depth, b, hb, hd, hs, hi => by
    bnd hb; safe hd; exact consumes h depth b hb hd hs hi
  | _, _, _, _, _, _, .union h1 h2, depth, b, hb, hd, hs, hi => by
    bnd hb; safe hd
    obtain ⟨bs, hbs, hb⟩ := Panicky.bind_eq_ok.1 hb
    obtain ⟨hd', b', hb', hf⟩ := list_get hbs hd h1
    obtain ⟨n, hn, hin⟩ := consumes h2 depth b' hf hd' hs hi
    exact ⟨n, hn, reduceUnion_mem hb hb' hin⟩
  | _, _, _, _, _, _, .unionNondet h1 _ h2, depth, b, hb, hd, hs, hi => by
    bnd hb; safe hd
    obtain ⟨bs, hbs, hb⟩ := Panicky.bind_eq_ok.1 hb
    obtain ⟨hd', b', hb', hf⟩ := list_get hbs hd h1
    obtain ⟨n, hn, hin⟩ := consumes h2 depth b' hf hd' hs hi
    exact ⟨n, hn, reduceUnion_mem hb hb' hin⟩
  | _, _, _, _, _, _, .tuple .fnil, depth, b, hb, hd, hs, hi => by
    bnd hb; cases hb; exact .zero _
  | _, _, _, _, _, _, .tuple (.fcons h1 h2), depth, b, hb, hd, hs, hi => by
    bnd hb; safe hd
    obtain ⟨bs, hbs, hb⟩ := Panicky.bind_eq_ok.1 hb
    simp only [Format.matchBoundsList] at hbs
    obtain ⟨b1, hb1, hbs⟩ := Panicky.bind_eq_ok.1 hbs
    obtain ⟨bs1, hbs1, hbs⟩ := Panicky.bind_eq_ok.1 hbs
    cases hbs
    cases hb
    simp only [Format.AllBoundsSafe] at hd
    obtain ⟨n, hn, hin⟩ := consumes h1 depth b1 hb1 hd.1 hs hi
    obtain ⟨n', hn', hin'⟩ := consumesF h2 depth bs1 hbs1 hd.2 hs (h1.forward.2 hi).1 b1 n hin
    exact ⟨n + n', by omega, hin'⟩
  | _, _, _, _, _, _, .sequence h, depth, b, hb, hd, hs, hi => by
    bnd hb; safe hd
    obtain ⟨bs, hbs, hb⟩ := Panicky.bind_eq_ok.1 hb
    cases hb
    obtain ⟨n, hn, hin⟩ := consumesF h depth bs hbs hd hs hi (.exact 0) 0 ((Bounds.C04_exact _ _).2 rfl)
    exact ⟨n, hn, by simpa using hin⟩
  | _, _, _, _, _, _, .repeat_ h, depth, b, hb, hd, hs, hi => by
    bnd hb; cases hb; exact .forward h.forward hi
  | _, _, _, _, _, _, .repeat1 h h1, depth, b, hb, hd, hs, hi => by
    bnd hb; safe hd
    obtain ⟨b1, hb1, hb⟩ := Panicky.bind_eq_ok.1 hb
    cases hb
    obtain ⟨n, hn, hlo, hhi⟩ := consumesM h depth b1 hb1 hd hs hi
    exact ⟨n, hn, mul_total (atLeast_mem (by
      cases ‹List Value› with
      | nil => exact absurd rfl h1
      | cons => simp)) hlo hhi⟩
  | _, _, _, _, _, _, .repeatCount h1 h h2, depth, b, hb, hd, hs, hi => by
    bnd hb; safe hd
    obtain ⟨b1, hb1, hb⟩ := Panicky.bind_eq_ok.1 hb
    obtain ⟨b2, hb2, hb⟩ := Panicky.bind_eq_ok.1 hb
    cases hb
    obtain ⟨n, hn, hlo, hhi⟩ := consumesM h depth b1 hb1 hd.2 hs hi
    exact ⟨n, hn, mul_total (by rw [h2]; exact denotesNat_bounds hd.1 hb2 h1) hlo hhi⟩
  | _, _, _, _, _, _, .repeatBetween h1 h2 h h3 h4, depth, b, hb, hd, hs, hi => by
    bnd hb; safe hd
    obtain ⟨b1, hb1, hb⟩ := Panicky.bind_eq_ok.1 hb
    obtain ⟨b2, hb2, hb⟩ := Panicky.bind_eq_ok.1 hb
    obtain ⟨b3, hb3, hb⟩ := Panicky.bind_eq_ok.1 hb
    cases hb
    obtain ⟨n, hn, hlo, hhi⟩ := consumesM h depth b1 hb1 hd.2.2 hs hi
    refine ⟨n, hn, mul_total ?_ hlo hhi⟩
    have i1 := Bounds.C04_union_left b2 b3 _ (denotesNat_bounds hd.1 hb2 h1)
    have i2 := Bounds.C04_union_right b2 b3 _ (denotesNat_bounds hd.2.1 hb3 h2)
    exact ⟨Nat.le_trans i1.1 h3, fun x hx => Nat.le_trans h4 (i2.2 x hx)⟩
  | _, _, _, _, _, _, .repeatUntilLast h h1 h2, depth, b, hb, hd, hs, hi => by
    bnd hb; safe hd
    obtain ⟨b1, hb1, hb⟩ := Panicky.bind_eq_ok.1 hb
    cases hb
    obtain ⟨n, hn, hlo, hhi⟩ := consumesM h depth b1 hb1 hd hs hi
    exact ⟨n, hn, mul_total (atLeast_mem (by simp)) hlo hhi⟩
  | _, _, _, _, _, _, .repeatUntilSeq h h1 h2 h3, depth, b, hb, hd, hs, hi => by
    bnd hb; cases hb; exact .forward h.forward hi
  | _, _, _, _, _, _, .accumUntil h1 h h2, depth, b, hb, hd, hs, hi => by
    bnd hb; cases hb; exact .forward h.forward hi
  | _, _, _, _, _, _, .forEach h1 h, depth, b, hb, hd, hs, hi => by
    bnd hb; cases hb; exact .forward h.forward hi
  | _, _, _, _, _, _, .maybe_some h1 h, depth, b, hb, hd, hs, hi => by
    bnd hb; safe hd
    obtain ⟨b1, hb1, hb⟩ := Panicky.bind_eq_ok.1 hb
    cases hb
    obtain ⟨n, hn, hin⟩ := consumes h depth b1 hb1 hd hs hi
    exact ⟨n, hn, Bounds.C04_union_right _ _ _ hin⟩
  | _, _, _, _, _, _, .maybe_none h, depth, b, hb, hd, hs, hi => by
    bnd hb
    obtain ⟨b1, hb1, hb⟩ := Panicky.bind_eq_ok.1 hb
    cases hb
    exact ⟨0, rfl, Bounds.C04_union_left _ _ _ ((Bounds.C04_exact _ _).2 rfl)⟩
  | _, _, _, _, _, _, .peek h, depth, b, hb, hd, hs, hi => by bnd hb; cases hb; exact .zero _
  | _, _, _, _, _, _, .peekNot _, depth, b, hb, hd, _, _ => by bnd hb; cases hb; exact .zero _
  | _, _, _, _, _, _, .slice h1 h2 h, depth, b, hb, hd, hs, hi => by
    bnd hb; safe hd
    exact ⟨_, rfl, denotesNat_bounds hd hb h1⟩
  | _, _, _, _, _, _, .bits h1 h, depth, b, hb, hd, hs, hi => by
    bnd hb; safe hd
    obtain ⟨b1, hb1, hb⟩ := Panicky.bind_eq_ok.1 hb
    cases hb
    obtain ⟨n, hn, hin⟩ := consumes h depth b1 hb1 hd hs (Nat.zero_le _)
    dsimp only at hn
    rw [Nat.zero_add] at hn
    exact ⟨_, rfl, by rw [hn]; exact Bounds.C04_bitsToBytes _ _ hin⟩
  | _, _, _, _, _, _, .withRelativeOffset h1 h2 h3 h, depth, b, hb, hd, hs, hi => by
    bnd hb; cases hb; exact .zero _
  | _, _, _, _, _, _, .map h h1, depth, b, hb, hd, hs, hi => by
    bnd hb; safe hd; exact consumes h depth b hb hd hs hi
  | _, _, _, _, _, _, .where_ h h1, depth, b, hb, hd, hs, hi => by
    bnd hb; safe hd; exact consumes h depth b hb hd hs hi
  | _, _, _, _, _, _, .where_lenient h h1, depth, b, hb, hd, hs, hi => by
    bnd hb; safe hd; exact consumes h depth b hb hd hs hi
  | _, _, _, _, _, _, .compute h, depth, b, hb, _, _, _ => by bnd hb; cases hb; exact .zero _
  | _, _, _, _, _, _, .let_ h1 h, depth, b, hb, hd, hs, hi => by
    bnd hb; safe hd; exact consumes h depth b hb hd (fun x g hg => hs x g hg) hi
  | _, _, _, _, _, _, .match_ h1 h2 h3 h4 h, depth, b, hb, hd, hs, hi => by
    bnd hb; safe hd
    obtain ⟨bs, hbs, hb⟩ := Panicky.bind_eq_ok.1 hb
    obtain ⟨hd', b', hb', hf⟩ := branches_get hbs hd h2
    obtain ⟨n, hn, hin⟩ := consumes h depth b' hf hd' (ScopeHuffman.withBindings hs _) hi
    exact ⟨n, hn, reduceUnion_mem hb hb' hin⟩
  | _, _, _, _, _, _, .dynamic h1 h2 h, depth, b, hb, hd, hs, hi => by
    bnd hb; safe hd; exact consumes h depth b hb hd (ScopeHuffman.decoder hs _ h2) hi
  | _, _, _, _, _, _, .apply h1 h, depth, b, hb, hd, hs, hi => by
    bnd hb; cases hb
    obtain ⟨ls, vs, hg⟩ := hs _ _ h1
    obtain ⟨n, hn, h1⟩ := huffman_consume hg h
    exact ⟨n, hn, atLeast_mem h1⟩
  | _, _, _, _, _, _, .pos, depth, b, hb, _, _, _ => by bnd hb; cases hb; exact .zero _
  | _, _, _, _, _, _, .skipRemainder (c := c), depth, b, hb, _, _, hi => by
    bnd hb; cases hb
    exact ⟨c.input.length - c.offset, by unfold ReadCtxt.Inside at hi; dsimp only; omega, Bounds.C04_any _⟩
  | _, _, _, _, _, _, .decodeBytes h1 h2 h h3, depth, b, hb, hd, hs, hi => by bnd hb; cases hb; exact .zero _
  | _, _, _, _, _, _, .decodeBytes_trailing h1 h2 h h3, depth, b, hb, hd, hs, hi => by
    bnd hb; cases hb; exact .zero _
  | _, _, _, _, _, _, .letFormat h1 h2, depth, b, hb, hd, hs, hi => by
    bnd hb; safe hd
    obtain ⟨b1, hb1, hb⟩ := Panicky.bind_eq_ok.1 hb
    obtain ⟨b2, hb2, hb⟩ := Panicky.bind_eq_ok.1 hb
    cases hb
    obtain ⟨n, hn, hin⟩ := consumes h1 depth b1 hb1 hd.1 hs hi
    obtain ⟨n', hn', hin'⟩ := consumes h2 depth b2 hb2 hd.2 (fun x g hg => hs x g hg) (h1.forward.2 hi).1
    exact ⟨n + n', by omega, Bounds.C04_add _ _ _ _ hin hin'⟩
  | _, _, _, _, _, _, .monadSeq h1 h2, depth, b, hb, hd, hs, hi => by
    bnd hb; safe hd
    obtain ⟨b1, hb1, hb⟩ := Panicky.bind_eq_ok.1 hb
    obtain ⟨b2, hb2, hb⟩ := Panicky.bind_eq_ok.1 hb
    cases hb
    obtain ⟨n, hn, hin⟩ := consumes h1 depth b1 hb1 hd.1 hs hi
    obtain ⟨n', hn', hin'⟩ := consumes h2 depth b2 hb2 hd.2 hs (h1.forward.2 hi).1
    exact ⟨n + n', by omega, Bounds.C04_add _ _ _ _ hin hin'⟩
  | _, _, _, _, _, _, .hint h, depth, b, hb, hd, hs, hi => by
    bnd hb; safe hd; exact consumes h depth b hb hd hs hi
  | _, _, _, _, _, _, .liftedNone, depth, b, hb, _, _, _ => by bnd hb; cases hb; exact .zero _
  | _, _, _, _, _, _, .liftedSome h, depth, b, hb, hd, hs, hi => by
    bnd hb; safe hd; exact consumes h depth b hb hd hs hi
  | _, _, _, _, _, _, .letView h, depth, b, hb, hd, hs, hi => by
    bnd hb; safe hd; exact consumes h depth b hb hd (fun x g hg => hs x g hg) hi
  | _, _, _, _, _, _, .captureBytes h1 h2 h3, depth, b, hb, _, _, _ => by bnd hb; cases hb; exact .zero _
  | _, _, _, _, _, _, .readArray h1 h2 h3 h4, depth, b, hb, _, _, _ => by bnd hb; cases hb; exact .zero _
  | _, _, _, _, _, _, .reifyView h, depth, b, hb, _, _, _ => by bnd hb; cases hb; exact .zero _
  | _, _, _, _, _, _, .parseFromView h1 h, depth, b, hb, _, _, _ => by bnd hb; cases hb; exact .zero _
  | _, _, _, _, _, _, .phantom, depth, b, hb, _, _, _ => by bnd hb; cases hb; exact .zero _
  | _, _, _, _, _, _, .enforce h, depth, b, hb, hd, hs, hi => by
    bnd hb; safe hd; exact consumes h depth b hb hd hs hi
  | _, _, _, _, _, _, .permit _, depth, b, hb, hd, _, _ => by safe hd
  | _, _, _, _, _, _, .permit_fallback _ _, depth, b, hb, hd, _, _ => by safe hd

theorem consumesF : ∀ {fs s c vs c' k}, ParsesFields m rej fs s c vs c' k → ∀ depth bs,
    Format.matchBoundsList (Format.itemMatchBounds m depth) fs = .ok bs → Format.AllBoundsSafe (Format.ItemBoundsSafe m depth) fs →
    ScopeHuffman s → c.Inside → ∀ a x, InInterval a x →
    ∃ n, c'.offset = c.offset + n ∧ InInterval (bs.foldl Bounds.add a) (x + n)
  | _, _, _, _, _, _, .fnil, depth, bs, hb, _, _, _, a, x, hx => by
    cases hb; exact ⟨0, rfl, hx⟩
  | _, _, _, _, _, _, .fcons h1 h2, depth, bs, hbs, hd, hs, hi, a, x, hx => by
    simp only [Format.matchBoundsList] at hbs
    obtain ⟨b1, hb1, hbs⟩ := Panicky.bind_eq_ok.1 hbs
    obtain ⟨bs1, hbs1, hbs⟩ := Panicky.bind_eq_ok.1 hbs
    cases hbs
    simp only [Format.AllBoundsSafe] at hd
    obtain ⟨n, hn, hin⟩ := consumes h1 depth b1 hb1 hd.1 hs hi
    obtain ⟨n', hn', hin'⟩ := consumesF h2 depth bs1 hbs1 hd.2 hs (h1.forward.2 hi).1 (a.add b1) (x + n)
      (Bounds.C04_add _ _ _ _ hx hin)
    exact ⟨n + n', by omega, by rw [← Nat.add_assoc]; exact hin'⟩

theorem consumesM : ∀ {f s c vs c' k}, ParsesMany m rej f s c vs c' k → ∀ depth b,
    Format.matchBoundsWith (Format.itemMatchBounds m depth) f = .ok b → f.BoundsSafeWith (Format.ItemBoundsSafe m depth) → ScopeHuffman s →
    c.Inside → ∃ n, c'.offset = c.offset + n ∧ vs.length * b.min ≤ n ∧ ∀ x, b.max = some x → n ≤ vs.length * x
  | _, _, _, _, _, _, .mnil, depth, b, hb, _, _, _ => ⟨0, rfl, by simp, by simp⟩
  | _, _, _, _, _, _, .mcons h1 h2, depth, b, hb, hd, hs, hi => by
    obtain ⟨n, hn, hin⟩ := consumes h1 depth b hb hd hs hi
    obtain ⟨n', hn', hlo, hhi⟩ := consumesM h2 depth b hb hd hs (h1.forward.2 hi).1
    refine ⟨n + n', by omega, ?_, ?_⟩
    · rw [List.length_cons, Nat.add_mul]; have := hin.1; omega
    · intro x hx
      rw [List.length_cons, Nat.add_mul]; have := hin.2 x hx; have := hhi x hx; omega
end
end

end Consume
end Doodle
