import Verif.Spec.ReadWidth

/-! Lemmas on read widths. -/

namespace Doodle
namespace TypeAnalysis

namespace Width

theorem Of.congr {P Q : Nat → Prop} (h : ∀ k, P k ↔ Q k) : ∀ {w : Width}, Of P w → Of Q w
  | .fixed _, hw => fun k => (h k).symm.trans (hw k)
  | .varies _, ⟨a, b, ha, hb, hn⟩ => ⟨a, b, (h a).1 ha, (h b).1 hb, hn⟩

theorem Of.some {P : Nat → Prop} : ∀ {w : Width}, Of P w → ∃ k, P k
  | .fixed n, hw => ⟨n, (hw n).2 rfl⟩
  | .varies _, ⟨a, _, ha, _, _⟩ => ⟨a, ha⟩

theorem Of.add {P Q : Nat → Prop} {a b c : Width} (ha : Of P a) (hb : Of Q b) (h : a.add b = .ok c) :
    Of (fun k => ∃ x y, P x ∧ Q y ∧ k = x + y) c := by
  cases a with
  | fixed n =>
    cases b with
    | fixed m =>
      simp only [Width.add] at h
      split at h
      · cases h
        intro k
        constructor
        · rintro ⟨x, y, hx, hy, rfl⟩
          rw [(ha x).1 hx, (hb y).1 hy]
        · rintro rfl
          exact ⟨n, m, (ha n).2 rfl, (hb m).2 rfl, rfl⟩
      · cases h
    | varies d =>
      simp only [Width.add] at h
      cases h
      obtain ⟨x, hx⟩ := ha.some
      obtain ⟨y, z, hy, hz, hn⟩ := hb
      exact ⟨x + y, x + z, ⟨x, y, hx, hy, rfl⟩, ⟨x, z, hx, hz, rfl⟩, by omega⟩
  | varies d =>
    have hc : ∃ e, c = .varies e := by
      cases b <;> (simp only [Width.add] at h; cases h; exact ⟨_, rfl⟩)
    obtain ⟨e, rfl⟩ := hc
    obtain ⟨x, hx⟩ := hb.some
    obtain ⟨y, z, hy, hz, hn⟩ := ha
    exact ⟨y + x, z + x, ⟨y, x, hy, hx, rfl⟩, ⟨z, x, hz, hx, rfl⟩, by omega⟩

theorem Of.unify {P Q : Nat → Prop} {a b : Width} (ha : Of P a) (hb : Of Q b) :
    Of (fun k => P k ∨ Q k) (a.unify b) := by
  cases a with
  | fixed n =>
    cases b with
    | fixed m =>
      simp only [Width.unify]
      split
      · subst_vars
        intro k
        change P k ∨ Q k ↔ _
        rw [ha k, hb k, or_self]
      · exact ⟨n, m, .inl ((ha n).2 rfl), .inr ((hb m).2 rfl), by assumption⟩
    | varies d =>
      obtain ⟨y, z, hy, hz, hn⟩ := hb
      exact ⟨y, z, .inr hy, .inr hz, hn⟩
  | varies d =>
    have hc : ∃ e, (Width.varies d).unify b = .varies e := by
      cases b <;> exact ⟨_, rfl⟩
    obtain ⟨e, he⟩ := hc
    rw [he]
    obtain ⟨y, z, hy, hz, hn⟩ := ha
    exact ⟨y, z, .inl hy, .inl hz, hn⟩

theorem Of.alike {P : Nat → Prop} {a b : Width} (ha : Of P a) (hb : Of P b) : Alike a b := by
  cases a with
  | fixed n =>
    cases b with
    | fixed m => simp only [Alike, asFixed, (hb n).1 ((ha n).2 rfl)]
    | varies d =>
      obtain ⟨y, z, hy, hz, hn⟩ := hb
      exact absurd (((ha y).1 hy).trans ((ha z).1 hz).symm) hn
  | varies d =>
    cases b with
    | fixed m =>
      obtain ⟨y, z, hy, hz, hn⟩ := ha
      exact absurd (((hb y).1 hy).trans ((hb z).1 hz).symm) hn
    | varies e => rfl

end Width

theorem bits_eq (w : Num.BitWidth) (k : Nat) : 8 * k = w.bits ↔ k = w.bits / 8 := by
  cases w <;> simp only [Num.BitWidth.bits] <;> omega

theorem anything_of {defs : List TypeDef} {t : RType} (h : t.Anything) (d : Bool) :
    Width.Of (Takes defs t) (.varies d) := ⟨0, 1, .anything h, .anything h, by omega⟩

variable {defs : List TypeDef} {look : Nat → Outcome Unit Width}

mutual
theorem width_of (hl : ∀ ix w, look ix = .ok w → Width.Of (Takes defs (.localDef ix)) w) :
    ∀ (t : RType) (w : Width), t.width look = .ok w → Width.Of (Takes defs t) w
  | .prim .unit, w, h => by
    cases h
    refine fun k => ⟨fun h => ?_, fun h => h ▸ .unit⟩
    cases h with
    | unit => rfl
    | anything h => cases h
  | .prim .bool, w, h => by cases h; exact anything_of (by simp [RType.Anything]) _
  | .prim .char, w, h => by cases h; exact anything_of (by simp [RType.Anything]) _
  | .prim .usize, w, h => by cases h; exact anything_of (by simp [RType.Anything]) _
  | .prim (.unsigned b), w, h => by
    cases h
    refine fun k => ⟨fun h => ?_, fun h => .unsigned ((bits_eq b k).2 h)⟩
    cases h with
    | unsigned h => exact (bits_eq b k).1 h
    | anything h => cases h
  | .signed b, w, h => by
    cases h
    refine fun k => ⟨fun h => ?_, fun h => .signed ((bits_eq b k).2 h)⟩
    cases h with
    | signed h => exact (bits_eq b k).1 h
    | anything h => cases h
  | .localDef ix, w, h => hl ix w h
  | .external, w, h => by cases h
  | .vec _, w, h => by cases h; exact anything_of (by simp [RType.Anything]) _
  | .rawSlice _, w, h => by cases h; exact anything_of (by simp [RType.Anything]) _
  | .option _, w, h => by cases h; exact anything_of (by simp [RType.Anything]) _
  | .result _ _, w, h => by cases h
  | .borrow _ _, w, h => by cases h; exact anything_of (by simp [RType.Anything]) _
  | .phantomData _, w, h => by
    cases h
    refine fun k => ⟨fun h => ?_, fun h => h ▸ .phantomData⟩
    cases h with
    | phantomData => rfl
    | anything h => cases h
  | .tuple ts, w, h => by
    refine (widthSum_of hl ts (fun k => k = 0) (.fixed 0) w (fun k => Iff.rfl) h).congr (fun k => ?_)
    constructor
    · rintro ⟨x, y, rfl, hy, rfl⟩
      rw [Nat.zero_add]
      exact .tuple hy
    · intro h
      cases h with
      | tuple h => exact ⟨0, k, rfl, h, (Nat.zero_add k).symm⟩
      | anything h => cases h
  | .verbatim, w, h => by cases h
  | .readArray, w, h => by cases h; exact anything_of (by simp [RType.Anything]) _
  | .viewObject, w, h => by cases h; exact anything_of (by simp [RType.Anything]) _
theorem widthSum_of (hl : ∀ ix w, look ix = .ok w → Width.Of (Takes defs (.localDef ix)) w) :
    ∀ (ts : List RType) (P : Nat → Prop) (total w : Width), Width.Of P total →
      RType.widthSum look total ts = .ok w →
      Width.Of (fun k => ∃ x y, P x ∧ TakesAll defs ts y ∧ k = x + y) w
  | [], P, total, w, ht, h => by
    cases h
    refine ht.congr (fun k => ⟨fun h => ⟨k, 0, h, .nil, rfl⟩, ?_⟩)
    rintro ⟨x, y, hx, hy, rfl⟩
    cases hy
    exact hx
  | t :: ts, P, total, w, ht, h => by
    simp only [RType.widthSum] at h
    obtain ⟨a, ha, h⟩ := Outcome.bind_eq_ok.1 h
    obtain ⟨b, hb, h⟩ := Outcome.bind_eq_ok.1 h
    refine (widthSum_of hl ts _ b w (ht.add (width_of hl t a ha) hb) h).congr (fun k => ?_)
    constructor
    · rintro ⟨_, y, ⟨x, z, hx, hz, rfl⟩, hy, rfl⟩
      exact ⟨x, z + y, hx, .cons hz hy, by omega⟩
    · rintro ⟨x, _, hx, hy, rfl⟩
      cases hy with
      | cons hz hy => exact ⟨_, _, ⟨x, _, hx, hz, rfl⟩, hy, by omega⟩
end

theorem fields_of (hl : ∀ ix w, look ix = .ok w → Width.Of (Takes defs (.localDef ix)) w)
    (ts : List RType) (w : Width) (h : RType.widthSum look (.fixed 0) ts = .ok w) :
    Width.Of (TakesAll defs ts) w := by
  refine (widthSum_of hl ts (fun k => k = 0) (.fixed 0) w (fun k => Iff.rfl) h).congr (fun k => ?_)
  constructor
  · rintro ⟨x, y, rfl, hy, rfl⟩
    rwa [Nat.zero_add]
  · exact fun h => ⟨0, k, rfl, h, (Nat.zero_add k).symm⟩

theorem variant_of (hl : ∀ ix w, look ix = .ok w → Width.Of (Takes defs (.localDef ix)) w)
    (v : RVariant) (w : Width) (h : v.width look = .ok w) : Width.Of (TakesAll defs v.fields) w := by
  cases v with
  | unit =>
    cases h
    refine fun k => ⟨fun h => ?_, fun h => h ▸ .nil⟩
    cases h
    rfl
  | tuple ts => exact fields_of hl ts w h

theorem variants_of (hl : ∀ ix w, look ix = .ok w → Width.Of (Takes defs (.localDef ix)) w) :
    ∀ (vs : List RVariant) (P : Nat → Prop) (total w : Width), Width.Of P total →
      RVariant.widthAll look total vs = .ok w →
      Width.Of (fun k => P k ∨ ∃ v ∈ vs, TakesAll defs v.fields k) w
  | [], P, total, w, ht, h => by
    cases h
    exact ht.congr (fun k => by simp)
  | v :: vs, P, total, w, ht, h => by
    simp only [RVariant.widthAll] at h
    obtain ⟨a, ha, h⟩ := Outcome.bind_eq_ok.1 h
    refine (variants_of hl vs _ _ w (ht.unify (variant_of hl v a ha)) h).congr (fun k => ?_)
    simp only [List.mem_cons, exists_eq_or_imp, or_assoc]

theorem def_of {n : Nat} : ∀ (ix : Nat) (w : Width), defWidth defs n ix = .ok w →
    Width.Of (Takes defs (.localDef ix)) w := by
  induction n with
  | zero => intro ix w h; cases h
  | succ n ih =>
    intro ix w h
    simp only [defWidth] at h
    cases hd : defs[ix]? with
    | none => rw [hd] at h; cases h
    | some d =>
      rw [hd] at h
      simp only at h
      match d, hd, h with
      | .struct fs, hd, h =>
        refine (fields_of ih fs w h).congr (fun k => ⟨fun h => .struct hd h, fun h => ?_⟩)
        cases h with
        | struct h1 h2 => rw [hd] at h1; cases h1; exact h2
        | enum h1 => rw [hd] at h1; cases h1
        | anything h => cases h
      | .enum [], hd, h => cases h
      | .enum (v :: vs), hd, h =>
        simp only [TypeDef.width] at h
        obtain ⟨a, ha, h⟩ := Outcome.bind_eq_ok.1 h
        refine (variants_of ih vs _ a w (variant_of ih v a ha) h).congr (fun k => ?_)
        constructor
        · rintro (h | ⟨u, hu, h⟩)
          · exact .enum hd (by simp) h
          · exact .enum hd (by simp [hu]) h
        · intro h
          cases h with
          | struct h1 => rw [hd] at h1; cases h1
          | enum h1 h2 h3 =>
            rw [hd] at h1
            cases h1
            rcases List.mem_cons.1 h2 with rfl | h2
            · exact .inl h3
            · exact .inr ⟨_, h2, h3⟩
          | anything h => cases h

/-! ### An answer is found -/

/-- an answer, or too large a sum -/
def Answers {α : Type} (o : Outcome Unit α) : Prop := (∃ a, o = .ok a) ∨ o = .err ()

theorem Answers.bind {α β : Type} {o : Outcome Unit α} {f : α → Outcome Unit β} (h : Answers o)
    (hf : ∀ a, Answers (f a)) : Answers (o >>= f) := by
  rcases h with ⟨a, rfl⟩ | rfl
  · exact hf a
  · exact .inr rfl

theorem add_answers (a b : Width) : Answers (a.add b) := by
  cases a <;> cases b <;> simp only [Width.add] <;> try exact .inl ⟨_, rfl⟩
  split
  · exact .inl ⟨_, rfl⟩
  · exact .inr rfl

mutual
theorem width_answers {m : Nat} (hl : ∀ ix, ix < m → Answers (look ix)) :
    ∀ t : RType, t.Generated m → Answers (t.width look)
  | .prim _, _ => .inl ⟨_, rfl⟩
  | .signed _, _ => .inl ⟨_, rfl⟩
  | .localDef ix, h => hl ix h
  | .vec _, _ => .inl ⟨_, rfl⟩
  | .option _, _ => .inl ⟨_, rfl⟩
  | .borrow _ _, _ => .inl ⟨_, rfl⟩
  | .phantomData _, _ => .inl ⟨_, rfl⟩
  | .tuple ts, h => sum_answers hl ts (.fixed 0) h
  | .readArray, _ => .inl ⟨_, rfl⟩
  | .viewObject, _ => .inl ⟨_, rfl⟩
theorem sum_answers {m : Nat} (hl : ∀ ix, ix < m → Answers (look ix)) :
    ∀ (ts : List RType) (total : Width), RType.AllGenerated m ts → Answers (RType.widthSum look total ts)
  | [], _, _ => .inl ⟨_, rfl⟩
  | t :: ts, total, h => by
    simp only [RType.widthSum]
    exact (width_answers hl t h.1).bind fun a => (add_answers total a).bind fun b => sum_answers hl ts b h.2
end

theorem variant_answers {m : Nat} (hl : ∀ ix, ix < m → Answers (look ix)) (v : RVariant)
    (h : ∀ ts, v = .tuple ts → RType.AllGenerated m ts) : Answers (v.width look) := by
  cases v with
  | unit => exact .inl ⟨_, rfl⟩
  | tuple ts => exact sum_answers hl ts _ (h ts rfl)

theorem variants_answer {m : Nat} (hl : ∀ ix, ix < m → Answers (look ix)) :
    ∀ (vs : List RVariant) (total : Width), (∀ ts, RVariant.tuple ts ∈ vs → RType.AllGenerated m ts) →
      Answers (RVariant.widthAll look total vs)
  | [], _, _ => .inl ⟨_, rfl⟩
  | v :: vs, total, h => by
    simp only [RVariant.widthAll]
    exact (variant_answers hl v (fun ts ht => h ts (by simp [ht]))).bind fun a =>
      variants_answer hl vs _ (fun ts ht => h ts (by simp [ht]))

theorem def_answers (hg : AllGenerated defs) : ∀ (n ix : Nat), ix < n → ix < defs.length →
    Answers (defWidth defs n ix)
  | 0, _, h, _ => by omega
  | n + 1, ix, h, hx => by
    have hd : defs[ix]? = some defs[ix] := List.getElem?_eq_getElem hx
    have hgen := hg ix _ hd
    have hl : ∀ j, j < ix → Answers (defWidth defs n j) := fun j hj =>
      def_answers hg n j (by omega) (by omega)
    simp only [defWidth, hd]
    generalize defs[ix] = d at hgen
    match d, hgen with
    | .struct fs, hgen => exact sum_answers hl fs _ hgen
    | .enum [], hgen => exact absurd rfl hgen.1
    | .enum (v :: vs), hgen =>
      simp only [TypeDef.width]
      exact (variant_answers hl v (fun ts ht => hgen.2 ts (by simp [ht]))).bind fun a =>
        variants_answer hl vs _ (fun ts ht => hgen.2 ts (by simp [ht]))

end TypeAnalysis
end Doodle
