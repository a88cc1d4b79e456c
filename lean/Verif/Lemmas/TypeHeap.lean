import Verif.Lemmas.TypeLayout

/-! What the analysis of boxing says of generated types. -/

namespace Doodle
namespace TypeAnalysis

/-- what may be said of a definition -/
def OfDef : Action → Prop
  | .noop => True
  | .nonLocal => True
  | .inRecord _ => True
  | .inEnum _ => True
  | _ => False

/-- what may be said of a type -/
def OfType (t : RType) : Action → Prop
  | .inRecord _ => False
  | .inEnum _ => False
  | .inOption _ => ∃ u, t = .option u
  | _ => True

structure GoodHeap (C : Ctx (Outcome Unit)) (k : Nat) : Prop where
  heap : ∀ j, j < k → C.heap j = .err () ∨ ∃ act lay, C.heap j = .ok (act, lay) ∧ Pow lay.align ∧ OfDef act ∧
    (act = .noop → C.size j = .ok lay.size ∧ C.align j = .ok lay.align)

section
variable {defs : List TypeDef} {C : Ctx (Outcome Unit)} {k : Nat} (G : Good defs C k) (H : GoodHeap C k) (st : Strategy)

section
include G

theorem layout_cases {s a : Nat} (ha : Pow a) : C.layout s a = .err () ∨ C.layout s a = .ok ⟨s, a⟩ := by
  unfold Ctx.layout
  rw [if_pos ha.isPow]
  split
  · exact .inr rfl
  · exact .inl G.overflow

theorem good_mkLayout {size align : Outcome Unit Nat}
    (h : size = .err () ∨ ∃ s, size = .ok s) (h' : ∃ a, align = .ok a ∧ Pow a) :
    (size.bind fun s => align.bind fun a => C.layout s a) = .err () ∨
      ∃ l : Layout, (size.bind fun s => align.bind fun a => C.layout s a) = .ok l ∧ size = .ok l.size ∧ align = .ok l.align ∧ Pow l.align := by
  obtain ⟨a, rfl, ha⟩ := h'
  rcases h with rfl | ⟨s, rfl⟩
  · exact .inl rfl
  · change C.layout s a = _ ∨ ∃ l, C.layout s a = _ ∧ _
    rcases layout_cases G (s := s) ha with h | h
    · exact .inl h
    · exact .inr ⟨⟨s, a⟩, h, rfl, rfl, ha⟩

theorem good_tLayout (t : RType) (h : t.Generated k) : t.mkLayout C = .err () ∨
    ∃ l : Layout, t.mkLayout C = .ok l ∧ t.sizeHint C = .ok l.size ∧ t.alignHint C = .ok l.align ∧ Pow l.align := by
  refine good_mkLayout G ?_ (good_align G t h)
  rcases good_size G t h with h | ⟨s, a, _, h, _⟩
  · exact .inl h
  · exact .inr ⟨s, h⟩

theorem good_vLayout (v : RVariant) (h : v.Gen k) : v.mkLayout C = .err () ∨
    ∃ l : Layout, v.mkLayout C = .ok l ∧ v.sizeHint C = .ok l.size ∧ v.alignHint C = .ok l.align ∧ Pow l.align := by
  refine good_mkLayout G ?_ (good_vAlign G v h)
  rcases good_vSize G v h with h | ⟨s, h, _⟩
  · exact .inl h
  · exact .inr ⟨s, h⟩

theorem good_dLayout (d : TypeDef) (h : d.Generated k) : d.mkLayout C = .err () ∨
    ∃ l : Layout, d.mkLayout C = .ok l ∧ d.sizeHint C = .ok l.size ∧ d.alignHint C = .ok l.align ∧ Pow l.align := by
  refine good_mkLayout G ?_ (good_dAlign G d h)
  rcases good_dSize G d h with h | ⟨s, a, _, h, _⟩
  · exact .inl h
  · exact .inr ⟨s, h⟩

/-- an answer about something with this size and alignment -/
def Says (size align : Outcome Unit Nat) (P : Action → Prop) (x : Outcome Unit (Action × Layout)) : Prop :=
  x = .err () ∨ ∃ act lay, x = .ok (act, lay) ∧ Pow lay.align ∧ P act ∧ (act = .noop → size = .ok lay.size ∧ align = .ok lay.align)

omit G in
theorem says_unchanged {x : Outcome Unit Layout} {size align : Outcome Unit Nat} {P : Action → Prop} (hP : P .noop)
    (h : x = .err () ∨ ∃ l : Layout, x = .ok l ∧ size = .ok l.size ∧ align = .ok l.align ∧ Pow l.align) :
    Says size align P (unchanged x) := by
  rcases h with rfl | ⟨l, rfl, h1, h2, h3⟩
  · exact .inl rfl
  · exact .inr ⟨.noop, l, rfl, h3, hP, fun _ => ⟨h1, h2⟩⟩

theorem says_tuple (ts : List RType) (r : List Action × Nat × Nat) (hr : Pow r.2.2) (P : Action → Prop)
    (hP : P .noop ∧ P .directHeap ∧ ∀ l, P (.inTuple l))
    (h : r.1.all Action.isNoop = true → RType.sizeAll C ts 0 1 = .ok r.2 ∧ RType.alignAll C ts = .ok r.2.2) :
    Says ((RType.sizeAll C ts 0 1).bind fun r => C.aligned r.1 r.2) (RType.alignAll C ts) P (tupleHint C st r) := by
  have e : tupleHint C st r = (C.aligned r.2.1 r.2.2).bind fun size => if st.absolute.any (· < size) then .ok (.directHeap, heapLayout)
      else (C.layout size r.2.2).bind fun l => .ok (if r.1.all Action.isNoop then .noop else .inTuple r.1, l) := rfl
  rcases aligned_cases G (s := r.2.1) hr with h1 | ⟨s, h1, _⟩
  · left; rw [e, h1]; rfl
  · rw [h1] at e
    change _ = if st.absolute.any (· < s) then _ else (C.layout s r.2.2).bind _ at e
    rw [e]
    split
    · exact .inr ⟨_, _, rfl, by simp [heapLayout, Pow], hP.2.1, fun h => nomatch h⟩
    · rcases layout_cases G (s := s) hr with h2 | h2
      · left; rw [h2]; rfl
      · rw [h2]
        refine .inr ⟨_, _, rfl, hr, ?_, fun hn => ?_⟩
        · split
          · exact hP.1
          · exact hP.2.2 _
        · split at hn
          · next hall =>
            obtain ⟨h3, h4⟩ := h hall
            rw [h3]
            exact ⟨h1, h4⟩
          · cases hn

end

include G H

mutual
theorem good_heap : ∀ t : RType, t.Generated k → t.NoNested → Says (t.sizeHint C) (t.alignHint C) (OfType t) (t.heapHint C st)
  | .prim p, h, _ => by unfold RType.heapHint; exact says_unchanged trivial (good_tLayout G _ h)
  | .signed w, h, _ => by unfold RType.heapHint; exact says_unchanged trivial (good_tLayout G _ h)
  | .localDef ix, h, _ => by
    unfold RType.heapHint
    have e : localHint C st ix = (C.heap ix).bind fun r => if st.absolute.any (· ≤ r.2.size) then .ok (.directHeap, heapLayout)
        else match r.1 with
          | .noop => .ok (.noop, r.2)
          | .nonLocal => .ok (.nonLocal, r.2)
          | .inRecord fs => .ok (.inDef (.inRecord fs), r.2)
          | .inEnum vs => .ok (.inDef (.inEnum vs), r.2)
          | _ => C.unreachable := rfl
    rcases H.heap ix h with h1 | ⟨act, lay, h1, h2, h3, h4⟩
    · left; rw [e, h1]; rfl
    · rw [e, h1]
      change Says _ _ _ (if st.absolute.any (· ≤ lay.size) then _ else _)
      split
      · exact .inr ⟨_, _, rfl, by simp [heapLayout, Pow], trivial, fun h => nomatch h⟩
      · cases act with
        | noop => exact .inr ⟨_, _, rfl, h2, trivial, fun _ => h4 rfl⟩
        | nonLocal => exact .inr ⟨_, _, rfl, h2, trivial, fun h => nomatch h⟩
        | inRecord fs => exact .inr ⟨_, _, rfl, h2, trivial, fun h => nomatch h⟩
        | inEnum fs => exact .inr ⟨_, _, rfl, h2, trivial, fun h => nomatch h⟩
        | directHeap => exact absurd h3 id
        | inOption _ => exact absurd h3 id
        | inDef _ => exact absurd h3 id
        | inTuple _ => exact absurd h3 id
  | .vec _, h, _ => by unfold RType.heapHint; exact says_unchanged trivial (good_tLayout G _ h)
  | .option t, h, hn => by
    have hn' : t.NoNested ∧ ¬ ∃ u, t = .option u := by
      cases t with
      | option u => exact absurd hn id
      | _ => exact ⟨hn, fun ⟨_, h⟩ => nomatch h⟩
    have ih := good_heap t h hn'.1
    have e : (RType.option t).heapHint C st = (t.heapHint C st).bind fun r => optionHint C t r.1 := by
      conv => lhs; unfold RType.heapHint
      rfl
    rw [e]
    rcases ih with h1 | ⟨act, lay, h1, h2, h3, h4⟩
    · left; rw [h1]; rfl
    · rw [h1]
      change Says _ _ _ (optionHint C t act)
      cases act with
      | noop => exact says_unchanged (P := OfType (.option t)) trivial (good_tLayout G (.option t) h)
      | nonLocal => exact .inr ⟨_, _, rfl, by simp [heapLayout, Pow], ⟨t, rfl⟩, fun h => nomatch h⟩
      | directHeap => exact .inr ⟨_, _, rfl, by simp [heapLayout, Pow], ⟨t, rfl⟩, fun h => nomatch h⟩
      | inDef _ => exact .inr ⟨_, _, rfl, by simp [heapLayout, Pow], ⟨t, rfl⟩, fun h => nomatch h⟩
      | inTuple _ => exact .inr ⟨_, _, rfl, by simp [heapLayout, Pow], ⟨t, rfl⟩, fun h => nomatch h⟩
      | inOption _ => exact absurd h3 hn'.2
      | inRecord _ => exact absurd h3 id
      | inEnum _ => exact absurd h3 id
  | .borrow _ _, h, _ => by unfold RType.heapHint; exact says_unchanged trivial (good_tLayout G _ h)
  | .phantomData _, h, _ => by unfold RType.heapHint; exact says_unchanged trivial (good_tLayout G _ h)
  | .tuple ts, h, hn => by
    unfold RType.heapHint
    split
    · exact says_unchanged trivial (good_tLayout G (.tuple ts) h)
    · have e : (RType.tuple ts).sizeHint C = (RType.sizeAll C ts 0 1).bind fun r => C.aligned r.1 r.2 := by
        conv => lhs; unfold RType.sizeHint
        rfl
      rw [e]
      change Says _ (RType.alignAll C ts) _ ((RType.heapAll C st ts 0 1).bind fun r => tupleHint C st r)
      rcases good_heapAll ts 0 1 (by simp [Pow]) h hn with h1 | ⟨r, h1, h2, h3⟩
      · left; rw [h1]; rfl
      · rw [h1]
        refine says_tuple G st ts r h2 (OfType (.tuple ts)) ⟨trivial, trivial, fun _ => trivial⟩ fun hall => ?_
        obtain ⟨h4, b, h5, h6⟩ := h3 hall
        obtain ⟨c, h7, h8, _⟩ := good_alignAll G ts h
        rw [h5] at h7; cases h7
        have : max 1 b = b := by unfold Pow at h8; omega
        rw [h6, this]
        exact ⟨h4, h5⟩
  | .readArray, h, _ => by unfold RType.heapHint; exact says_unchanged trivial (good_tLayout G _ h)
  | .viewObject, h, _ => by unfold RType.heapHint; exact says_unchanged trivial (good_tLayout G _ h)
  | .external, h, _ => absurd h id
  | .rawSlice _, h, _ => absurd h id
  | .result _ _, h, _ => absurd h id
  | .verbatim, h, _ => absurd h id

theorem good_heapAll : ∀ (ts : List RType) (s a : Nat), Pow a → RType.AllGenerated k ts → RType.NoneNested ts →
    RType.heapAll C st ts s a = .err () ∨
      ∃ r, RType.heapAll C st ts s a = .ok r ∧ Pow r.2.2 ∧
        (r.1.all Action.isNoop = true → RType.sizeAll C ts s a = .ok r.2 ∧ ∃ b, RType.alignAll C ts = .ok b ∧ r.2.2 = max a b)
  | [], s, a, ha, _, _ => .inr ⟨([], s, a), by unfold RType.heapAll; rfl, ha, fun _ => ⟨by unfold RType.sizeAll; rfl, 1, rfl, by
      unfold Pow at ha; change a = max a 1; omega⟩⟩
  | t :: ts, s, a, ha, h, hn => by
    have e : RType.heapAll C st (t :: ts) s a = (t.heapHint C st).bind fun r => (C.add s r.2.size).bind fun s' =>
        (RType.heapAll C st ts s' (max a r.2.align)).bind fun q => .ok (r.1 :: q.1, q.2) := by
      conv => lhs; unfold RType.heapAll
      rfl
    have e2 : RType.sizeAll C (t :: ts) s a = (t.sizeHint C).bind fun s' => (C.add s s').bind fun s'' => (t.alignHint C).bind fun a' =>
        RType.sizeAll C ts s'' (max a a') := by
      conv => lhs; unfold RType.sizeAll
      rfl
    have e3 : RType.alignAll C (t :: ts) = (t.alignHint C).bind fun a => (RType.alignAll C ts).bind fun b => .ok (max a b) := by
      conv => lhs; unfold RType.alignAll
      rfl
    rcases good_heap t h.1 hn.1 with h1 | ⟨act, lay, h1, h2, _, h4⟩
    · left; rw [e, h1]; rfl
    · rw [h1] at e
      change _ = (C.add s lay.size).bind _ at e
      rcases add_cases G s lay.size with h5 | h5
      · left; rw [e, h5]; rfl
      · rw [h5] at e
        change _ = (RType.heapAll C st ts (s + lay.size) (max a lay.align)).bind _ at e
        rcases good_heapAll ts (s + lay.size) (max a lay.align) (ha.max h2) h.2 hn.2 with h6 | ⟨r, h6, h7, h8⟩
        · left; rw [e, h6]; rfl
        · refine .inr ⟨(act :: r.1, r.2), by rw [e, h6]; rfl, h7, fun hall => ?_⟩
          rw [List.all_cons, Bool.and_eq_true] at hall
          have ha' : act = .noop := by
            cases act <;> first | rfl | exact absurd hall.1 (fun h => nomatch h)
          obtain ⟨h9, h10⟩ := h4 ha'
          obtain ⟨h11, b, h12, h13⟩ := h8 hall.2
          refine ⟨?_, max lay.align b, ?_, ?_⟩
          · rw [e2, h9]
            change (C.add s lay.size).bind _ = _
            rw [h5, h10]; exact h11
          · rw [e3, h10]
            change (RType.alignAll C ts).bind _ = _
            rw [h12]; rfl
          · change r.2.2 = _
            rw [h13, Nat.max_assoc]
end

theorem good_fields (ts : List RType) (h : RType.AllGenerated k ts) (hn : RType.NoneNested ts) :
    RType.heapAll C st ts 0 1 = .err () ∨
      ∃ r, RType.heapAll C st ts 0 1 = .ok r ∧ Pow r.2.2 ∧
        (r.1.all Action.isNoop = true → RType.sizeAll C ts 0 1 = .ok r.2 ∧ RType.alignAll C ts = .ok r.2.2) := by
  rcases good_heapAll G H st ts 0 1 (by simp [Pow]) h hn with h1 | ⟨r, h1, h2, h3⟩
  · exact .inl h1
  · refine .inr ⟨r, h1, h2, fun hall => ?_⟩
    obtain ⟨h4, b, h5, h6⟩ := h3 hall
    obtain ⟨c, h7, h8, _⟩ := good_alignAll G ts h
    rw [h5] at h7; cases h7
    have : max 1 b = b := by unfold Pow at h8; omega
    rw [h6, this]
    exact ⟨h4, h5⟩

def AnyAct : Action → Prop := fun _ => True

theorem good_vHeap (v : RVariant) (h : v.Gen k) (hn : RType.NoneNested v.fields) :
    Says (v.sizeHint C) (v.alignHint C) AnyAct (v.heapHint C st) := by
  cases v with
  | unit => exact says_unchanged (x := C.layout 0 1) trivial (by
      rcases layout_cases G (s := 0) (a := 1) (by simp [Pow]) with h1 | h1
      · exact .inl h1
      · exact .inr ⟨_, h1, rfl, rfl, by simp [Pow]⟩)
  | tuple ts =>
    unfold RVariant.heapHint
    dsimp only
    split
    · exact says_unchanged trivial (good_vLayout G (.tuple ts) h)
    · change Says ((RType.sizeAll C ts 0 1).bind fun r => C.aligned r.1 r.2) (RType.alignAll C ts) _
        ((RType.heapAll C st ts 0 1).bind fun r => tupleHint C st r)
      rcases good_fields G H st ts h hn with h1 | ⟨r, h1, h2, h3⟩
      · left; rw [h1]; rfl
      · rw [h1]
        exact says_tuple G st ts r h2 AnyAct ⟨trivial, trivial, fun _ => trivial⟩ h3

theorem good_vHeapAll : ∀ vs : List RVariant, (∀ v ∈ vs, v.Gen k) → (∀ v ∈ vs, RType.NoneNested v.fields) →
    RVariant.heapAll C st vs = .err () ∨ ∃ rs, RVariant.heapAll C st vs = .ok rs ∧ rs.length = vs.length ∧ ∀ r ∈ rs, Pow r.2.align
  | [], _, _ => .inr ⟨[], rfl, rfl, fun _ h => nomatch h⟩
  | v :: vs, h, hn => by
    have e : RVariant.heapAll C st (v :: vs) = (v.heapHint C st).bind fun r => (RVariant.heapAll C st vs).bind fun q => .ok (r :: q) := rfl
    rcases good_vHeap G H st v (h v List.mem_cons_self) (hn v List.mem_cons_self) with h1 | ⟨act, lay, h1, h2, _⟩
    · left; rw [e, h1]; rfl
    · rcases good_vHeapAll vs (fun v hv => h v (List.mem_cons_of_mem _ hv)) (fun v hv => hn v (List.mem_cons_of_mem _ hv)) with h3 | ⟨rs, h3, h4, h5⟩
      · left; rw [e, h1]; change (RVariant.heapAll C st vs).bind _ = _; rw [h3]; rfl
      · refine .inr ⟨(act, lay) :: rs, ?_, by simp [h4], fun r hr => ?_⟩
        · rw [e, h1]; change (RVariant.heapAll C st vs).bind _ = _; rw [h3]; rfl
        · rcases List.mem_cons.1 hr with rfl | hr
          · exact h2
          · exact h5 r hr

omit G H in
theorem maxAlign_pow (rs : List (Action × Layout)) (h : ∀ r ∈ rs, Pow r.2.align) : Pow (maxAlign rs) := by
  unfold maxAlign
  have : ∀ (rs : List (Action × Layout)) (a : Nat), Pow a → (∀ r ∈ rs, Pow r.2.align) → Pow (rs.foldl (fun a r => max a r.2.align) a) := by
    intro rs
    induction rs with
    | nil => exact fun a ha _ => ha
    | cons r rs ih => exact fun a ha h => ih _ (ha.max (h r List.mem_cons_self)) fun q hq => h q (List.mem_cons_of_mem _ hq)
  exact this rs 1 (by simp [Pow]) h

theorem good_enumLayout (rs : List (Action × Layout)) (h : ∀ r ∈ rs, Pow r.2.align) :
    enumLayout C rs = .err () ∨ ∃ l, enumLayout C rs = .ok l ∧ Pow l.align := by
  have e : enumLayout C rs = (C.add (maxSize 0 rs) 1).bind fun s => (C.aligned s (maxAlign rs)).bind fun s' => C.layout s' (maxAlign rs) := rfl
  have hp := maxAlign_pow rs h
  rcases add_cases G (maxSize 0 rs) 1 with h1 | h1
  · left; rw [e, h1]; rfl
  · rw [h1] at e
    change _ = (C.aligned (maxSize 0 rs + 1) _).bind _ at e
    rcases aligned_cases G (s := maxSize 0 rs + 1) hp with h2 | ⟨s, h2, _⟩
    · left; rw [e, h2]; rfl
    · rw [h2] at e
      change _ = C.layout s _ at e
      rw [e]
      rcases layout_cases G (s := s) hp with h3 | h3
      · exact .inl h3
      · exact .inr ⟨_, h3, hp⟩

theorem good_dHeap (d : TypeDef) (h : d.Generated k) (hn : d.NoNested) : Says (d.sizeHint C) (d.alignHint C) OfDef (d.heapHint C st) := by
  cases d with
  | struct fs =>
    unfold TypeDef.heapHint
    dsimp only
    split
    · exact says_unchanged trivial (good_dLayout G (.struct fs) h)
    · change Says ((RType.sizeAll C fs 0 1).bind fun r => C.aligned r.1 r.2) (RType.alignAll C fs) _
        ((RType.heapAll C st fs 0 1).bind fun r => (C.aligned r.2.1 r.2.2).bind fun size => (C.layout size r.2.2).bind fun l =>
          .ok (if r.1.all Action.isNoop then .noop else .inRecord r.1, l))
      rcases good_fields G H st fs h hn with h1 | ⟨r, h1, h2, h3⟩
      · left; rw [h1]; rfl
      · rw [h1]
        change Says _ _ _ ((C.aligned r.2.1 r.2.2).bind _)
        rcases aligned_cases G (s := r.2.1) h2 with h4 | ⟨s, h4, _⟩
        · left; rw [h4]; rfl
        · rw [h4]
          change Says _ _ _ ((C.layout s r.2.2).bind _)
          rcases layout_cases G (s := s) h2 with h5 | h5
          · left; rw [h5]; rfl
          · rw [h5]
            refine .inr ⟨_, _, rfl, h2, ?_, fun hq => ?_⟩
            · split <;> trivial
            · split at hq
              · next hall =>
                obtain ⟨h6, h7⟩ := h3 hall
                rw [h6]
                exact ⟨h4, h7⟩
              · cases hq
  | enum vs =>
    have hg := enum_gen h
    have hv : ∀ v ∈ vs, RType.NoneNested v.fields := fun v hv => by
      cases v with
      | unit => trivial
      | tuple ts => exact hn ts hv
    have base : Says ((TypeDef.enum vs).sizeHint C) ((TypeDef.enum vs).alignHint C) OfDef (unchanged ((TypeDef.enum vs).mkLayout C)) :=
      says_unchanged trivial (good_dLayout G (.enum vs) h)
    unfold TypeDef.heapHint
    dsimp only
    cases st.variant with
    | some delta =>
      change Says _ _ _ ((RVariant.heapAll C st vs).bind _)
      rcases good_vHeapAll G H st vs hg hv with h1 | ⟨rs, h1, h2, h3⟩
      · left; rw [h1]; rfl
      · rw [h1]
        cases rs with
        | nil =>
          have : vs = [] := List.eq_nil_of_length_eq_zero h2.symm
          exact absurd this h.1
        | cons r rs =>
          obtain ⟨least, hm⟩ : ∃ least, minSize (r :: rs) = some least := ⟨_, rfl⟩
          dsimp only [Outcome.bind]
          rw [hm]
          · dsimp only
            change Says _ _ _ ((C.add least delta).bind _)
            rcases add_cases G least delta with h4 | h4
            · left; rw [h4]; rfl
            · rw [h4]
              change Says _ _ _ (if _ then (C.layout _ heapLayout.align).bind _ else _)
              split
              · rcases layout_cases G (s := maxSize least ((r :: rs).map fun r => if least + delta ≤ r.2.size then (Action.directHeap, heapLayout) else r))
                  (a := heapLayout.align) (by simp [heapLayout, Pow]) with h5 | h5
                · left; rw [h5]; rfl
                · rw [h5]
                  exact .inr ⟨_, _, rfl, by simp [heapLayout, Pow], trivial, fun h => nomatch h⟩
              · split
                · exact base
                · rcases good_enumLayout G H _ h3 with h5 | ⟨l, h5, h6⟩
                  · left
                    change (enumLayout C (r :: rs)).bind _ = _
                    rw [h5]; rfl
                  · refine .inr ⟨.nonLocal, l, ?_, h6, trivial, fun h => nomatch h⟩
                    change (enumLayout C (r :: rs)).bind _ = _
                    rw [h5]; rfl
    | none =>
      dsimp only
      split
      · change Says _ _ _ ((RVariant.heapAll C st vs).bind _)
        rcases good_vHeapAll G H st vs hg hv with h1 | ⟨rs, h1, h2, h3⟩
        · left; rw [h1]; rfl
        · rw [h1]
          change Says _ _ _ (if _ then _ else (enumLayout C rs).bind _)
          split
          · exact base
          · rcases good_enumLayout G H _ h3 with h5 | ⟨l, h5, h6⟩
            · left; rw [h5]; rfl
            · refine .inr ⟨.inEnum (rs.map (·.1)), l, ?_, h6, trivial, fun h => nomatch h⟩
              rw [h5]; rfl
      · exact base

end

theorem heap_plain {defs : List TypeDef} (st : Strategy) (h : AllGenerated defs) (hn : ∀ d ∈ defs, d.NoNested) :
    ∀ n k, k ≤ n → k ≤ defs.length → GoodHeap (Ctx.plain defs st n) k
  | 0, k, hk, _ => ⟨fun j hj => absurd hj (by omega)⟩
  | n + 1, k, hk, hl => by
    refine ⟨fun j hj => ?_⟩
    have e : defs[j]? = some defs[j] := List.getElem?_eq_getElem (by omega)
    have := good_dHeap (good_plain st h n j (by omega) (by omega)) (heap_plain st h hn n j (by omega) (by omega)) st defs[j] (h j _ e)
      (hn _ (List.getElem_mem _))
    change (match defs[j]? with | some d => TypeDef.heapHint (Ctx.plain defs st n) st d | none => Outcome.panic) = _ ∨
      ∃ act lay, (match defs[j]? with | some d => TypeDef.heapHint (Ctx.plain defs st n) st d | none => Outcome.panic) = _ ∧ _ ∧ _ ∧
        (_ → (match defs[j]? with | some d => TypeDef.sizeHint (Ctx.plain defs st n) d | none => Outcome.panic) = _ ∧
          (match defs[j]? with | some d => TypeDef.alignHint (Ctx.plain defs st n) d | none => Outcome.panic) = _)
    rw [e]
    exact this

end TypeAnalysis
end Doodle
