import Verif.Spec.Flat
import Verif.Lemmas.Record

/-! Lemmas on the flat listing. -/

namespace Doodle.Flat
open Grammar Record

/-- listing the value finishes without a panic -/
def Lists (m : Module) (st : Style) (v : Value) (f : Format) : Prop :=
  ∃ n, ∀ fuel, n ≤ fuel → ∃ ls, writeFlat m st fuel v f = .ok ls

variable {m : Module} {st : Style}

theorem Lists.step {v w : Value} {f g : Format} (h : Lists m st v f)
    (he : ∀ fuel, writeFlat m st (fuel + 1) w g = writeFlat m st fuel v f) : Lists m st w g := by
  obtain ⟨n, hn⟩ := h
  refine ⟨n + 1, fun fuel hf => ?_⟩
  obtain ⟨k, rfl⟩ : ∃ k, fuel = k + 1 := ⟨fuel - 1, by omega⟩
  rw [he]
  exact hn k (by omega)

theorem Lists.now {w : Value} {g : Format} (ls : List Nat)
    (he : ∀ fuel, writeFlat m st (fuel + 1) w g = .ok ls) : Lists m st w g := by
  refine ⟨1, fun fuel hf => ?_⟩
  obtain ⟨k, rfl⟩ : ∃ k, fuel = k + 1 := ⟨fuel - 1, by omega⟩
  exact ⟨ls, he k⟩

theorem blind_lists : ∀ (f : Format), Blind st f → ∀ v, Lists m st v f
  | .itemVar level _ _, h, v => .now [level] (fun fuel => by
      simp only [Blind] at h; simp [writeFlat, h])
  | .phantom _, _, v => .now [] (fun fuel => by simp [writeFlat])
  | .fail, _, v => .now [] (fun fuel => by simp [writeFlat])
  | .endOfInput, _, v => .now [] (fun fuel => by simp [writeFlat])
  | .skipRemainder, _, v => .now [] (fun fuel => by simp [writeFlat])
  | .align _, _, v => .now [] (fun fuel => by simp [writeFlat])
  | .pos, _, v => .now [] (fun fuel => by simp [writeFlat])
  | .byte _, _, v => .now [] (fun fuel => by simp [writeFlat])
  | .map _ _, _, v => .now [] (fun fuel => by simp [writeFlat])
  | .where_ _ _ _, _, v => .now [] (fun fuel => by simp [writeFlat])
  | .compute _, _, v => .now [] (fun fuel => by simp [writeFlat])
  | .apply _, _, v => .now [] (fun fuel => by simp [writeFlat])
  | .captureBytes _ _, _, v => .now [] (fun fuel => by simp [writeFlat])
  | .readArray _ _ _, _, v => .now [] (fun fuel => by simp [writeFlat])
  | .reifyView _, _, v => .now [] (fun fuel => by simp [writeFlat])
  | .decodeBytes _ f, h, v => (blind_lists f h v).step (fun fuel => by simp [writeFlat])
  | .parseFromView _ f, h, v => (blind_lists f h v).step (fun fuel => by simp [writeFlat])
  | .peek f, h, v => (blind_lists f h v).step (fun fuel => by simp [writeFlat])
  | .peekNot f, h, v => (blind_lists f h v).step (fun fuel => by simp [writeFlat])
  | .slice _ f, h, v => (blind_lists f h v).step (fun fuel => by simp [writeFlat])
  | .bits f, h, v => (blind_lists f h v).step (fun fuel => by simp [writeFlat])
  | .withRelativeOffset _ _ f, h, v => (blind_lists f h v).step (fun fuel => by simp [writeFlat])
  | .let_ _ _ f, h, v => (blind_lists f h v).step (fun fuel => by simp [writeFlat])
  | .letView _ f, h, v => (blind_lists f h v).step (fun fuel => by simp [writeFlat])
  | .dynamic _ _ _ f, h, v => (blind_lists f h v).step (fun fuel => by simp [writeFlat])
  | .letFormat _ _ f, h, v => (blind_lists f h v).step (fun fuel => by simp [writeFlat])
  | .monadSeq _ f, h, v => (blind_lists f h v).step (fun fuel => by simp [writeFlat])
  | .permit f _, h, v => (blind_lists f h v).step (fun fuel => by simp [writeFlat])
  | .enforce f, h, v => (blind_lists f h v).step (fun fuel => by simp [writeFlat])
  | .hint f, h, v => (blind_lists f h.2 v).step (fun fuel => by
      have := h.1
      simp [writeFlat, this])

/-! ### Loops -/

theorem listableAll_get : ∀ {fs : List Format} {i : Nat} {f : Format}, ListableAll st fs →
    fs[i]? = some f → Listable st f
  | _ :: _, 0, _, h, hi => by
    simp only [List.getElem?_cons_zero, Option.some.injEq] at hi; subst hi; exact h.1
  | _ :: fs, i + 1, f, h, hi => listableAll_get (fs := fs) (i := i) h.2 (by simpa using hi)
  | [], _, _, _, hi => by simp at hi

theorem listableBranches_get : ∀ {bs : List (Pattern × Format)} {i : Nat} {p : Pattern} {f : Format},
    ListableBranches st bs → bs[i]? = some (p, f) → Listable st f
  | _ :: _, 0, _, _, h, hi => by
    simp only [List.getElem?_cons_zero, Option.some.injEq] at hi; subst hi; exact h.1
  | (_, _) :: bs, i + 1, _, _, h, hi => listableBranches_get (bs := bs) (i := i) h.2 (by simpa using hi)
  | [], _, _, _, _, hi => by simp at hi

/-- every item of a list can be listed -/
inductive EachLists (m : Module) (st : Style) (f : Format) : List Value → Prop
  | nil : EachLists m st f []
  | cons {v vs} : Lists m st v f → EachLists m st f vs → EachLists m st f (v :: vs)

/-- values and formats can be listed side by side -/
inductive ZipLists (m : Module) (st : Style) : List Format → List Value → Prop
  | nil : ZipLists m st [] []
  | cons {f fs v vs} : Lists m st v f → ZipLists m st fs vs → ZipLists m st (f :: fs) (v :: vs)

theorem EachLists.ok {f : Format} {vs : List Value} (h : EachLists m st f vs) :
    ∃ n, ∀ fuel, n ≤ fuel → ∃ ls, writeEach (writeFlat m st fuel) f vs = .ok ls := by
  induction h with
  | nil => exact ⟨0, fun _ _ => ⟨[], rfl⟩⟩
  | cons h _ ih =>
    obtain ⟨a, ha⟩ := h
    obtain ⟨b, hb⟩ := ih
    refine ⟨max a b, fun fuel hf => ?_⟩
    obtain ⟨x, hx⟩ := ha fuel (by omega)
    obtain ⟨y, hy⟩ := hb fuel (by omega)
    exact ⟨x ++ y, by simp [writeEach, hx, hy]⟩

theorem ZipLists.ok {fs : List Format} {vs : List Value} (h : ZipLists m st fs vs) :
    ∃ n, ∀ fuel, n ≤ fuel → ∃ ls, writeZip (writeFlat m st fuel) fs vs = .ok ls := by
  induction h with
  | nil => exact ⟨0, fun _ _ => ⟨[], rfl⟩⟩
  | cons h _ ih =>
    obtain ⟨a, ha⟩ := h
    obtain ⟨b, hb⟩ := ih
    refine ⟨max a b, fun fuel hf => ?_⟩
    obtain ⟨x, hx⟩ := ha fuel (by omega)
    obtain ⟨y, hy⟩ := hb fuel (by omega)
    exact ⟨x ++ y, by simp [writeZip, hx, hy]⟩

theorem Lists.loop {w : Value} {g : Format} {r : Nat → Outcome Unit (List Nat)}
    (h : ∃ n, ∀ fuel, n ≤ fuel → ∃ ls, r fuel = .ok ls)
    (he : ∀ fuel, writeFlat m st (fuel + 1) w g = r fuel) : Lists m st w g := by
  obtain ⟨n, hn⟩ := h
  refine ⟨n + 1, fun fuel hf => ?_⟩
  obtain ⟨k, rfl⟩ : ∃ k, fuel = k + 1 := ⟨fuel - 1, by omega⟩
  rw [he]
  exact hn k (by omega)

theorem fields_ok {flat : Flat} : ∀ {rs : List (String × Value)},
    (∀ p ∈ rs, ∃ q, lookupValueField p.1 flat = some q ∧ Lists m st p.2 q.1) →
    ∃ n, ∀ fuel, n ≤ fuel → ∃ ls, writeFields (writeFlat m st fuel) flat rs = .ok ls
  | [], _ => ⟨0, fun _ _ => ⟨[], rfl⟩⟩
  | (l, v) :: rs, h => by
    obtain ⟨q, hq, a, ha⟩ := h (l, v) (by simp)
    obtain ⟨b, hb⟩ := fields_ok (rs := rs) (fun p hp => h p (by simp [hp]))
    refine ⟨max a b, fun fuel hf => ?_⟩
    obtain ⟨x, hx⟩ := ha fuel (by omega)
    obtain ⟨y, hy⟩ := hb fuel (by omega)
    exact ⟨x ++ y, by simp only [writeFields, hq]; simp [hx, hy]⟩

/-! ### Records -/

theorem evalFields_vars {δ : Type} (s : Scope δ) : ∀ (xs : List String) (rs : List (String × Value)),
    Expr.evalFields (xs.map fun x => (x, .var x)) s = .ok rs →
    ∀ p ∈ rs, p.1 ∈ xs ∧ s.getValue p.1 = some p.2
  | [], rs, h => by
    simp only [List.map_nil, Expr.evalFields] at h
    cases h
    simp
  | x :: xs, rs, h => by
    simp only [List.map_cons, Expr.evalFields] at h
    obtain ⟨v, hv, h⟩ := Panicky.bind_eq_ok.1 h
    obtain ⟨vs, hvs, h⟩ := Panicky.bind_eq_ok.1 h
    cases h
    have hg : s.getValue x = some v := by
      simp only [Expr.eval] at hv
      cases hx : s.getValue x with
      | none => rw [hx] at hv; cases hv
      | some w => rw [hx] at hv; cases hv; rfl
    intro p hp
    rcases List.mem_cons.1 hp with rfl | hp
    · exact ⟨by simp, hg⟩
    · have := evalFields_vars s xs vs hvs p hp
      exact ⟨by simp [this.1], this.2⟩

theorem compute_record {δ : Type} {s : Scope δ} {xs : List String} {v : Value}
    (h : Denotes (.record (xs.map fun x => (x, .var x))) s v) :
    ∃ rs, v = .record rs ∧ ∀ p ∈ rs, p.1 ∈ xs ∧ s.getValue p.1 = some p.2 := by
  unfold Denotes Expr.evalValue at h
  obtain ⟨w, hw, h⟩ := Panicky.bind_eq_ok.1 h
  simp only [Expr.eval] at hw
  obtain ⟨rs, hrs, hw⟩ := Panicky.bind_eq_ok.1 hw
  cases hw
  cases h
  exact ⟨rs, rfl, evalFields_vars s xs rs hrs⟩

/-- The value of a record-shaped format is a record of kept fields, each of which is in order: `K`
says what is known of kept fields. -/
def ChainGood (m : Module) (st : Style) (f : Format) (s : Scope Format) (v : Value) : Prop :=
  ∀ (before : List String) (fs : List Field), Shaped before fs f → Listable st f →
    ∀ K : String → Value → Prop,
    (∀ x ∈ before, ∀ w, s.getValue x = some w → K x w) →
    (∀ x ∈ before, ∀ b, some (x, b) ∉ fs.map (·.1)) →
    NoRebind (fs.map (·.1)) →
    (∀ x g, (some (x, true), g) ∈ fs → ∀ w, Lists m st w g → K x w) →
    ∃ rs, v = .record rs ∧ ∀ p ∈ rs, K p.1 p.2

theorem lookup_kept {fs : List Field} (hc : NoClash (fs.map (·.1))) (hr : NoRebind (fs.map (·.1)))
    {x : String} {g : Format} (h : (some (x, true), g) ∈ fs) :
    lookupValueField x (fs.map fun p => (flatLabel p.1, p.2)) = some (g, x) := by
  induction fs with
  | nil => simp at h
  | cons f fs ih =>
    obtain ⟨l, g'⟩ := f
    have hc' : NoClash (fs.map (·.1)) := fun y hy hn =>
      hc y (by simp only [List.map_cons]; exact List.mem_cons_of_mem _ hy)
        (by simp only [List.map_cons]; exact List.mem_cons_of_mem _ hn)
    simp only [List.map_cons, NoRebind] at hr
    rcases List.mem_cons.1 h with he | hm
    · cases he
      simp [flatLabel, lookupValueField]
    · have hx : some (x, true) ∈ fs.map (·.1) := List.mem_map.2 ⟨_, hm, rfl⟩
      match l with
      | none => simpa [flatLabel, lookupValueField] using ih hc' hr.1 hm
      | some (y, false) => simpa [flatLabel, lookupValueField] using ih hc' hr.1 hm
      | some (y, true) =>
        have hne : y ≠ x := by
          rintro rfl
          exact hr.2 y rfl true hx
        simpa [flatLabel, lookupValueField, hne] using ih hc' hr.1 hm

theorem record_lists {f : Format} {s : Scope Format} {v : Value} (hl : Listable st (.hint f))
    (hrec : st.record f = true) (h : ChainGood m st f s v) : Lists m st v (.hint f) := by
  simp only [Listable] at hl
  obtain ⟨fs, hs, hr, hc⟩ := hl.1 hrec
  obtain ⟨rs, rfl, hrs⟩ := h [] fs hs hl.2
    (fun x w => ∃ q, lookupValueField x (fs.map fun p => (flatLabel p.1, p.2)) = some q
      ∧ Lists m st w q.1)
    (by simp) (by simp) hr
    (fun x g hg w hw => ⟨(g, x), lookup_kept hc hr hg, hw⟩)
  refine Lists.loop (fields_ok hrs) (fun fuel => ?_)
  simp only [writeFlat, hrec, if_true, writeRecord, hs.flatten hc]

theorem chain_monad {f g : Format} {s : Scope Format} {w : Value}
    (h : ChainGood m st g s w) : ChainGood m st (.monadSeq f g) s w := by
  intro before fs hs hl K h1 h2 h3 h4
  simp only [Listable] at hl
  cases hs with
  | unnamed hs =>
    simp only [List.map_cons, NoRebind, List.mem_cons, not_or] at h2 h3
    exact h before _ hs hl.2 K h1 (fun x hx b => (h2 x hx b).2) h3.1
      (fun x g hg => h4 x g (List.mem_cons_of_mem _ hg))

theorem chain_let {f g : Format} {x : String} {s : Scope Format} {v w : Value}
    (hf : Listable st f → Lists m st v f) (h : ChainGood m st g (.single x v s) w) :
    ChainGood m st (.letFormat f x g) s w := by
  intro before fs hs hl K h1 h2 h3 h4
  simp only [Listable] at hl
  cases hs with
  | temporary hs =>
    simp only [List.map_cons, NoRebind, List.mem_cons, not_or] at h2 h3
    refine h before _ hs hl.2 K ?_ (fun y hy b => (h2 y hy b).2) h3.1
      (fun y g hg => h4 y g (List.mem_cons_of_mem _ hg))
    intro y hy u hu
    have hne : x ≠ y := by
      rintro rfl
      exact (h2 x hy false).1 rfl
    simp only [Scope.getValue, if_neg hne] at hu
    exact h1 y hy u hu
  | permanent hs =>
    simp only [List.map_cons, NoRebind, List.mem_cons, not_or] at h2 h3
    refine h (before ++ [x]) _ hs hl.2 K ?_ ?_ h3.1
      (fun y g hg => h4 y g (List.mem_cons_of_mem _ hg))
    · intro y hy u hu
      by_cases hne : x = y
      · subst hne
        simp only [Scope.getValue, if_true, Option.some.injEq] at hu
        subst hu
        exact h4 x f (by simp) v (hf hl.1)
      · simp only [Scope.getValue, if_neg hne] at hu
        rcases List.mem_append.1 hy with hy | hy
        · exact h1 y hy u hu
        · simp only [List.mem_singleton] at hy
          exact absurd hy.symm hne
    · intro y hy b
      rcases List.mem_append.1 hy with hy | hy
      · exact (h2 y hy b).2
      · simp only [List.mem_singleton] at hy
        subst hy
        exact h3.2 y rfl b

theorem chain_hint {f : Format} {s : Scope Format} {v : Value}
    (h : ChainGood m st f s v) : ChainGood m st (.hint f) s v := by
  intro before fs hs hl K h1 h2 h3 h4
  simp only [Listable] at hl
  cases hs with
  | hint hs => exact h before fs hs hl.2 K h1 h2 h3 h4

theorem chain_compute {e : Expr} {s : Scope Format} {v : Value} (hd : Denotes e s v) :
    ChainGood m st (.compute e) s v := by
  intro before fs hs hl K h1 h2 h3 h4
  cases hs with
  | done hb =>
    obtain ⟨rs, rfl, hrs⟩ := compute_record hd
    exact ⟨rs, rfl, fun p hp => h1 p.1 (hrs p hp).1 p.2 (hrs p hp).2⟩

/-- both facts about a parsed value -/
def Both (m : Module) (st : Style) (f : Format) (s : Scope Format) (v : Value) : Prop :=
  (Listable st f → Lists m st v f) ∧ ChainGood m st f s v

theorem Both.simple {f : Format} {s : Scope Format} {v : Value} (h : Listable st f → Lists m st v f)
    (hn : ∀ before fs, ¬ Shaped before fs f) : Both m st f s v :=
  ⟨h, fun before fs hs => absurd hs (hn before fs)⟩

mutual
theorem lists_of_parses {m : Module} {st : Style} (hm : ∀ it ∈ m.items, Listable st it.format) {rej} :
    ∀ {f s c v c' k}, Parses m rej f s c v c' k → Both m st f s v
  | _, _, _, _, _, _, .itemVar (level := level) hi _ _ h => .simple (fun _ => by
      by_cases hs : st.shown level = true
      · exact .now [level] (fun fuel => by simp [writeFlat, hs])
      · refine ((lists_of_parses hm h).1 (hm _ (List.mem_of_getElem? hi))).step (fun fuel => ?_)
        simp only [Bool.not_eq_true] at hs
        simp [writeFlat, hs, Module.get, hi, Panicky.unwrap]) (fun _ _ hs => by cases hs)
  | _, _, _, _, _, _, .endOfInput _ =>
    .simple (fun _ => blind_lists _ (by simp [Blind]) _) (fun _ _ hs => by cases hs)
  | _, _, _, _, _, _, .align _ _ _ _ _ =>
    .simple (fun _ => blind_lists _ (by simp [Blind]) _) (fun _ _ hs => by cases hs)
  | _, _, _, _, _, _, .byte _ _ =>
    .simple (fun _ => blind_lists _ (by simp [Blind]) _) (fun _ _ hs => by cases hs)
  | _, _, _, _, _, _, .variant h =>
    .simple (fun hl => ((lists_of_parses hm h).1 hl).step (fun fuel => by simp [writeFlat]))
      (fun _ _ hs => by cases hs)
  | _, _, _, _, _, _, .union hi h =>
    .simple (fun hl => ((lists_of_parses hm h).1 (listableAll_get hl hi)).step
      (fun fuel => by simp [writeFlat, hi])) (fun _ _ hs => by cases hs)
  | _, _, _, _, _, _, .unionNondet hi _ h =>
    .simple (fun hl => ((lists_of_parses hm h).1 (listableAll_get hl hi)).step
      (fun fuel => by simp [writeFlat, hi])) (fun _ _ hs => by cases hs)
  | _, _, _, _, _, _, .tuple h =>
    .simple (fun hl => .loop (zip_of_parses hm h hl).ok (fun fuel => by simp [writeFlat]))
      (fun _ _ hs => by cases hs)
  | _, _, _, _, _, _, .sequence h =>
    .simple (fun hl => .loop (zip_of_parses hm h hl).ok (fun fuel => by simp [writeFlat, SeqKind.iter]))
      (fun _ _ hs => by cases hs)
  | _, _, _, _, _, _, .repeat_ h =>
    .simple (fun hl => .loop (each_of_parses hm h hl).ok (fun fuel => by simp [writeFlat, SeqKind.iter]))
      (fun _ _ hs => by cases hs)
  | _, _, _, _, _, _, .repeat1 h _ =>
    .simple (fun hl => .loop (each_of_parses hm h hl).ok (fun fuel => by simp [writeFlat, SeqKind.iter]))
      (fun _ _ hs => by cases hs)
  | _, _, _, _, _, _, .repeatCount _ h _ =>
    .simple (fun hl => .loop (each_of_parses hm h hl).ok (fun fuel => by simp [writeFlat, SeqKind.iter]))
      (fun _ _ hs => by cases hs)
  | _, _, _, _, _, _, .repeatBetween _ _ h _ _ =>
    .simple (fun hl => .loop (each_of_parses hm h hl).ok (fun fuel => by simp [writeFlat, SeqKind.iter]))
      (fun _ _ hs => by cases hs)
  | _, _, _, _, _, _, .repeatUntilLast h _ _ =>
    .simple (fun hl => .loop (each_of_parses hm h hl).ok (fun fuel => by simp [writeFlat, SeqKind.iter]))
      (fun _ _ hs => by cases hs)
  | _, _, _, _, _, _, .repeatUntilSeq h _ _ _ =>
    .simple (fun hl => .loop (each_of_parses hm h hl).ok (fun fuel => by simp [writeFlat, SeqKind.iter]))
      (fun _ _ hs => by cases hs)
  | _, _, _, _, _, _, .accumUntil _ h _ =>
    .simple (fun hl => .loop (each_of_parses hm h hl).ok (fun fuel => by simp [writeFlat, SeqKind.iter]))
      (fun _ _ hs => by cases hs)
  | _, _, _, _, _, _, .forEach _ h =>
    .simple (fun hl => .loop (items_of_parses hm h hl).ok (fun fuel => by simp [writeFlat, SeqKind.iter]))
      (fun _ _ hs => by cases hs)
  | _, _, _, _, _, _, .maybe_some _ h =>
    .simple (fun hl => ((lists_of_parses hm h).1 hl).step (fun fuel => by simp [writeFlat]))
      (fun _ _ hs => by cases hs)
  | _, _, _, _, _, _, .maybe_none _ =>
    .simple (fun _ => .now [] (fun fuel => by simp [writeFlat])) (fun _ _ hs => by cases hs)
  | _, _, _, _, _, _, .peek h =>
    .simple (fun hl => ((lists_of_parses hm h).1 hl).step (fun fuel => by simp [writeFlat]))
      (fun _ _ hs => by cases hs)
  | _, _, _, _, _, _, .peekNot _ =>
    .simple (fun hl => blind_lists (.peekNot _) hl _) (fun _ _ hs => by cases hs)
  | _, _, _, _, _, _, .slice _ _ h =>
    .simple (fun hl => ((lists_of_parses hm h).1 hl).step (fun fuel => by simp [writeFlat]))
      (fun _ _ hs => by cases hs)
  | _, _, _, _, _, _, .bits _ h =>
    .simple (fun hl => ((lists_of_parses hm h).1 hl).step (fun fuel => by simp [writeFlat]))
      (fun _ _ hs => by cases hs)
  | _, _, _, _, _, _, .withRelativeOffset _ _ _ h =>
    .simple (fun hl => ((lists_of_parses hm h).1 hl).step (fun fuel => by simp [writeFlat]))
      (fun _ _ hs => by cases hs)
  | _, _, _, _, _, _, .map _ _ =>
    .simple (fun _ => blind_lists _ (by simp [Blind]) _) (fun _ _ hs => by cases hs)
  | _, _, _, _, _, _, .where_ _ _ =>
    .simple (fun _ => blind_lists _ (by simp [Blind]) _) (fun _ _ hs => by cases hs)
  | _, _, _, _, _, _, .where_lenient _ _ =>
    .simple (fun _ => blind_lists _ (by simp [Blind]) _) (fun _ _ hs => by cases hs)
  | _, _, _, _, _, _, .compute hd => ⟨fun _ => blind_lists _ (by simp [Blind]) _, chain_compute hd⟩
  | _, _, _, _, _, _, .let_ _ h =>
    .simple (fun hl => ((lists_of_parses hm h).1 hl).step (fun fuel => by simp [writeFlat]))
      (fun _ _ hs => by cases hs)
  | _, _, _, _, _, _, .match_ _ hb _ _ h =>
    .simple (fun hl => ((lists_of_parses hm h).1 (listableBranches_get hl hb)).step
      (fun fuel => by simp [writeFlat, hb])) (fun _ _ hs => by cases hs)
  | _, _, _, _, _, _, .dynamic _ _ h =>
    .simple (fun hl => ((lists_of_parses hm h).1 hl).step (fun fuel => by simp [writeFlat]))
      (fun _ _ hs => by cases hs)
  | _, _, _, _, _, _, .apply _ _ =>
    .simple (fun _ => blind_lists _ (by simp [Blind]) _) (fun _ _ hs => by cases hs)
  | _, _, _, _, _, _, .pos =>
    .simple (fun _ => blind_lists _ (by simp [Blind]) _) (fun _ _ hs => by cases hs)
  | _, _, _, _, _, _, .skipRemainder =>
    .simple (fun _ => blind_lists _ (by simp [Blind]) _) (fun _ _ hs => by cases hs)
  | _, _, _, _, _, _, .decodeBytes _ _ h _ =>
    .simple (fun hl => ((lists_of_parses hm h).1 hl).step (fun fuel => by simp [writeFlat]))
      (fun _ _ hs => by cases hs)
  | _, _, _, _, _, _, .decodeBytes_trailing _ _ h _ =>
    .simple (fun hl => ((lists_of_parses hm h).1 hl).step (fun fuel => by simp [writeFlat]))
      (fun _ _ hs => by cases hs)
  | _, _, _, _, _, _, .letFormat h1 h2 =>
    ⟨fun hl => ((lists_of_parses hm h2).1 hl.2).step (fun fuel => by simp [writeFlat]),
      chain_let (lists_of_parses hm h1).1 (lists_of_parses hm h2).2⟩
  | _, _, _, _, _, _, .monadSeq _ h2 =>
    ⟨fun hl => ((lists_of_parses hm h2).1 hl.2).step (fun fuel => by simp [writeFlat]),
      chain_monad (lists_of_parses hm h2).2⟩
  | _, _, _, _, _, _, .hint (f := f) h =>
    ⟨fun hl => by
      by_cases hr : st.record f = true
      · exact record_lists hl hr (lists_of_parses hm h).2
      · simp only [Bool.not_eq_true] at hr
        exact ((lists_of_parses hm h).1 (by simp only [Listable] at hl; exact hl.2)).step
          (fun fuel => by simp [writeFlat, hr]),
      chain_hint (lists_of_parses hm h).2⟩
  | _, _, _, _, _, _, .liftedNone =>
    .simple (fun _ => .now [] (fun fuel => by simp [writeFlat])) (fun _ _ hs => by cases hs)
  | _, _, _, _, _, _, .liftedSome h =>
    .simple (fun hl => ((lists_of_parses hm h).1 hl).step (fun fuel => by simp [writeFlat]))
      (fun _ _ hs => by cases hs)
  | _, _, _, _, _, _, .letView h =>
    .simple (fun hl => ((lists_of_parses hm h).1 hl).step (fun fuel => by simp [writeFlat]))
      (fun _ _ hs => by cases hs)
  | _, _, _, _, _, _, .captureBytes _ _ _ =>
    .simple (fun _ => blind_lists _ (by simp [Blind]) _) (fun _ _ hs => by cases hs)
  | _, _, _, _, _, _, .readArray _ _ _ _ =>
    .simple (fun _ => blind_lists _ (by simp [Blind]) _) (fun _ _ hs => by cases hs)
  | _, _, _, _, _, _, .reifyView _ =>
    .simple (fun _ => blind_lists _ (by simp [Blind]) _) (fun _ _ hs => by cases hs)
  | _, _, _, _, _, _, .parseFromView _ h =>
    .simple (fun hl => ((lists_of_parses hm h).1 hl).step (fun fuel => by simp [writeFlat]))
      (fun _ _ hs => by cases hs)
  | _, _, _, _, _, _, .phantom =>
    .simple (fun _ => blind_lists _ (by simp [Blind]) _) (fun _ _ hs => by cases hs)
  | _, _, _, _, _, _, .enforce h =>
    .simple (fun hl => ((lists_of_parses hm h).1 hl).step (fun fuel => by simp [writeFlat]))
      (fun _ _ hs => by cases hs)
  | _, _, _, _, _, _, .permit _ =>
    .simple (fun hl => blind_lists (.permit _ _) hl _) (fun _ _ hs => by cases hs)
  | _, _, _, _, _, _, .permit_fallback _ _ =>
    .simple (fun hl => blind_lists (.permit _ _) hl _) (fun _ _ hs => by cases hs)
theorem zip_of_parses {m : Module} {st : Style} (hm : ∀ it ∈ m.items, Listable st it.format) {rej} :
    ∀ {fs s c vs c' k}, ParsesFields m rej fs s c vs c' k → ListableAll st fs → ZipLists m st fs vs
  | _, _, _, _, _, _, .fnil, _ => .nil
  | _, _, _, _, _, _, .fcons h hs, hl => .cons ((lists_of_parses hm h).1 hl.1) (zip_of_parses hm hs hl.2)
theorem each_of_parses {m : Module} {st : Style} (hm : ∀ it ∈ m.items, Listable st it.format) {rej} :
    ∀ {f s c vs c' k}, ParsesMany m rej f s c vs c' k → Listable st f → EachLists m st f vs
  | _, _, _, _, _, _, .mnil, _ => .nil
  | _, _, _, _, _, _, .mcons h hs, hl => .cons ((lists_of_parses hm h).1 hl) (each_of_parses hm hs hl)
theorem items_of_parses {m : Module} {st : Style} (hm : ∀ it ∈ m.items, Listable st it.format) {rej} :
    ∀ {l f s is c vs c' k}, ParsesEach m rej l f s is c vs c' k → Listable st f → EachLists m st f vs
  | _, _, _, _, _, _, _, _, .enil, _ => .nil
  | _, _, _, _, _, _, _, _, .econs h hs, hl =>
    .cons ((lists_of_parses hm h).1 hl) (items_of_parses hm hs hl)
end

/-! ### Which lines -/

theorem Prints.step {v w : Value} {f g : Format} {ls : List Nat} (h : Prints m st v f ls)
    (he : ∀ fuel, writeFlat m st (fuel + 1) w g = writeFlat m st fuel v f) : Prints m st w g ls := by
  obtain ⟨n, hn⟩ := h
  refine ⟨n + 1, fun fuel hf => ?_⟩
  obtain ⟨k, rfl⟩ : ∃ k, fuel = k + 1 := ⟨fuel - 1, by omega⟩
  rw [he]
  exact hn k (by omega)

theorem Prints.loop {w : Value} {g : Format} {ls : List Nat} {r : Nat → Outcome Unit (List Nat)}
    (h : ∃ n, ∀ fuel, n ≤ fuel → r fuel = .ok ls)
    (he : ∀ fuel, writeFlat m st (fuel + 1) w g = r fuel) : Prints m st w g ls := by
  obtain ⟨n, hn⟩ := h
  refine ⟨n + 1, fun fuel hf => ?_⟩
  obtain ⟨k, rfl⟩ : ∃ k, fuel = k + 1 := ⟨fuel - 1, by omega⟩
  rw [he]
  exact hn k (by omega)

theorem both_ok {r r1 r2 : Nat → Outcome Unit (List Nat)} {a b : List Nat}
    (h1 : ∃ n, ∀ fuel, n ≤ fuel → r1 fuel = .ok a) (h2 : ∃ n, ∀ fuel, n ≤ fuel → r2 fuel = .ok b)
    (h : ∀ fuel, r1 fuel = .ok a → r2 fuel = .ok b → r fuel = .ok (a ++ b)) :
    ∃ n, ∀ fuel, n ≤ fuel → r fuel = .ok (a ++ b) := by
  obtain ⟨n1, h1⟩ := h1
  obtain ⟨n2, h2⟩ := h2
  exact ⟨max n1 n2, fun fuel hf => h fuel (h1 fuel (by omega)) (h2 fuel (by omega))⟩

mutual
theorem Lines.prints {m : Module} {st : Style} : ∀ {v f ls}, Lines m st v f ls → Prints m st v f ls
  | _, _, _, .byte => .loop (r := fun _ => .ok []) ⟨0, fun _ _ => rfl⟩ (fun fuel => by simp [writeFlat])
  | _, _, _, .titled (level := level) h => .loop (r := fun _ => .ok [level]) ⟨0, fun _ _ => rfl⟩
      (fun fuel => by simp [writeFlat, h])
  | _, _, _, .untitled h hi hl => hl.prints.step
      (fun fuel => by simp [writeFlat, h, Module.get, hi, Panicky.unwrap])
  | _, _, _, .variant h => h.prints.step (fun fuel => by simp [writeFlat])
  | _, _, _, .union hi h => h.prints.step (fun fuel => by simp [writeFlat, hi])
  | _, _, _, .unionNondet hi h => h.prints.step (fun fuel => by simp [writeFlat, hi])
  | _, _, _, .match_ hi h => h.prints.step (fun fuel => by simp [writeFlat, hi])
  | _, _, _, .tuple h => .loop h.prints (fun fuel => by simp [writeFlat])
  | _, _, _, .sequence h => .loop h.prints (fun fuel => by simp [writeFlat, SeqKind.iter])
  | _, _, _, .repeats (g := g) hg h => .loop h.prints (fun fuel => by
      cases g <;> simp_all [repeated, writeFlat, SeqKind.iter])
  | _, _, _, .accum h => .loop h.prints (fun fuel => by simp [writeFlat, SeqKind.iter])
  | _, _, _, .present h => h.prints.step (fun fuel => by simp [writeFlat])
  | _, _, _, .absent => .loop (r := fun _ => .ok []) ⟨0, fun _ _ => rfl⟩ (fun fuel => by simp [writeFlat])
  | _, _, _, .pass (g := g) hg h => h.prints.step (fun fuel => by
      cases g <;> simp_all [passed, writeFlat])
  | _, _, _, .record hrec hs hr hc h => .loop (h.prints hr hc) (fun fuel => by
      simp only [writeFlat, hrec, if_true, writeRecord, hs.flatten hc])
theorem LinesZip.prints {m : Module} {st : Style} : ∀ {vs fs ls}, LinesZip m st vs fs ls →
    ∃ n, ∀ fuel, n ≤ fuel → writeZip (writeFlat m st fuel) fs vs = .ok ls
  | _, _, _, .nil => ⟨0, fun _ _ => rfl⟩
  | _, _, _, .cons h hs => both_ok h.prints hs.prints (fun fuel h1 h2 => by simp [writeZip, h1, h2])
theorem LinesEach.prints {m : Module} {st : Style} : ∀ {vs f ls}, LinesEach m st vs f ls →
    ∃ n, ∀ fuel, n ≤ fuel → writeEach (writeFlat m st fuel) f vs = .ok ls
  | _, _, _, .nil => ⟨0, fun _ _ => rfl⟩
  | _, _, _, .cons h hs => both_ok h.prints hs.prints (fun fuel h1 h2 => by simp [writeEach, h1, h2])
theorem LinesFields.prints {m : Module} {st : Style} : ∀ {rs fs ls}, LinesFields m st rs fs ls →
    NoRebind (fs.map (·.1)) → NoClash (fs.map (·.1)) →
    ∃ n, ∀ fuel, n ≤ fuel →
      writeFields (writeFlat m st fuel) (fs.map fun p => (flatLabel p.1, p.2)) rs = .ok ls
  | _, _, _, .nil, _, _ => ⟨0, fun _ _ => rfl⟩
  | _, _, _, .cons hm h hs, hr, hc => both_ok h.prints (hs.prints hr hc) (fun fuel h1 h2 => by
      simp only [writeFields, lookup_kept hc hr hm]; simp [h1, h2])
end

/-! ### Coverage -/

theorem bind_ok_unit {x y : Outcome Unit Unit} (h : (do x; y) = .ok ()) : x = .ok () ∧ y = .ok () := by
  obtain ⟨_, h1, h2⟩ := Outcome.bind_eq_ok.1 h
  exact ⟨h1, h2⟩

theorem checkAll_mem {fuel : Nat} : ∀ {fs : List Format}, checkAll m st fuel fs = .ok () →
    ∀ g ∈ fs, checkCovered m st fuel g = .ok ()
  | [], _ => by simp
  | f :: fs, h => by
    rw [checkAll] at h
    have := bind_ok_unit h
    intro g hg
    rcases List.mem_cons.1 hg with rfl | hg
    · exact this.1
    · exact checkAll_mem this.2 g hg

theorem checkBranches_mem {fuel : Nat} : ∀ {bs : List (Pattern × Format)},
    checkBranches m st fuel bs = .ok () → ∀ g ∈ bs.map (·.2), checkCovered m st fuel g = .ok ()
  | [], _ => by simp
  | (_, f) :: bs, h => by
    rw [checkBranches] at h
    have := bind_ok_unit h
    intro g hg
    simp only [List.map_cons] at hg
    rcases List.mem_cons.1 hg with rfl | hg
    · exact this.1
    · exact checkBranches_mem this.2 g hg

theorem covered_part {fuel : Nat} {f g : Format} (hg : g ∈ parts f)
    (h : checkCovered m st fuel f = .ok ()) : checkCovered m st fuel g = .ok () := by
  cases f <;> simp only [parts, List.not_mem_nil, List.mem_cons, or_false] at hg <;>
    rw [checkCovered] at h <;>
    first
    | (subst hg; exact h)
    | exact checkAll_mem h g hg
    | exact checkBranches_mem h g hg
    | (have := bind_ok_unit h; rcases hg with rfl | rfl <;> simp [this])

theorem exposed_not_ok {f : Format} (h : Exposed m st f) : ∀ fuel, checkCovered m st fuel f ≠ .ok () := by
  induction h with
  | byte => intro fuel hc; rw [checkCovered] at hc; cases hc
  | part hg _ ih => exact fun fuel hc => ih fuel (covered_part hg hc)
  | item hs hi _ ih =>
    intro fuel hc
    cases fuel with
    | zero => simp [checkCovered, hs] at hc
    | succ k => simp only [checkCovered, hs, Bool.false_eq_true, if_false, hi] at hc; exact ih k hc

theorem bind_err_unit {x y : Outcome Unit Unit} (h : (do x; y) = .err ()) : x = .err () ∨ y = .err () := by
  cases x with
  | ok u => exact .inr h
  | err => exact .inl rfl
  | panic => cases h
  | fuel => cases h

mutual
theorem err_exposed {m : Module} {st : Style} {fuel : Nat}
    (ih : ∀ k, k < fuel → ∀ f, checkCovered m st k f = .err () → Exposed m st f) :
    ∀ f, checkCovered m st fuel f = .err () → Exposed m st f
  | .byte _, _ => .byte
  | .itemVar level _ _, h => by
    by_cases hs : st.shown level = true
    · cases fuel <;> simp [checkCovered, hs] at h
    · simp only [Bool.not_eq_true] at hs
      cases fuel with
      | zero => simp [checkCovered, hs] at h
      | succ k =>
        cases hi : m.items[level]? with
        | none => simp [checkCovered, hs, hi] at h
        | some it =>
          simp only [checkCovered, hs, Bool.false_eq_true, if_false, hi] at h
          exact .item hs hi (ih k (by omega) _ h)
  | .match_ _ bs, h => by
    rw [checkCovered] at h
    obtain ⟨g, hg, he⟩ := err_exposedBranches ih bs h
    exact .part (by simpa [parts] using hg) he
  | .variant _ f, h => .part (by simp [parts]) (err_exposed ih f (by rw [checkCovered] at h; exact h))
  | .repeat_ f, h => .part (by simp [parts]) (err_exposed ih f (by rw [checkCovered] at h; exact h))
  | .repeat1 f, h => .part (by simp [parts]) (err_exposed ih f (by rw [checkCovered] at h; exact h))
  | .repeatCount _ f, h => .part (by simp [parts]) (err_exposed ih f (by rw [checkCovered] at h; exact h))
  | .repeatBetween _ _ f, h => .part (by simp [parts]) (err_exposed ih f (by rw [checkCovered] at h; exact h))
  | .repeatUntilLast _ f, h => .part (by simp [parts]) (err_exposed ih f (by rw [checkCovered] at h; exact h))
  | .repeatUntilSeq _ f, h => .part (by simp [parts]) (err_exposed ih f (by rw [checkCovered] at h; exact h))
  | .accumUntil _ _ _ _ f, h => .part (by simp [parts]) (err_exposed ih f (by rw [checkCovered] at h; exact h))
  | .forEach _ _ f, h => .part (by simp [parts]) (err_exposed ih f (by rw [checkCovered] at h; exact h))
  | .maybe _ f, h => .part (by simp [parts]) (err_exposed ih f (by rw [checkCovered] at h; exact h))
  | .peek f, h => .part (by simp [parts]) (err_exposed ih f (by rw [checkCovered] at h; exact h))
  | .slice _ f, h => .part (by simp [parts]) (err_exposed ih f (by rw [checkCovered] at h; exact h))
  | .bits f, h => .part (by simp [parts]) (err_exposed ih f (by rw [checkCovered] at h; exact h))
  | .withRelativeOffset _ _ f, h => .part (by simp [parts]) (err_exposed ih f (by rw [checkCovered] at h; exact h))
  | .let_ _ _ f, h => .part (by simp [parts]) (err_exposed ih f (by rw [checkCovered] at h; exact h))
  | .dynamic _ _ _ f, h => .part (by simp [parts]) (err_exposed ih f (by rw [checkCovered] at h; exact h))
  | .decodeBytes _ f, h => .part (by simp [parts]) (err_exposed ih f (by rw [checkCovered] at h; exact h))
  | .hint f, h => .part (by simp [parts]) (err_exposed ih f (by rw [checkCovered] at h; exact h))
  | .liftedSome f, h => .part (by simp [parts]) (err_exposed ih f (by rw [checkCovered] at h; exact h))
  | .letView _ f, h => .part (by simp [parts]) (err_exposed ih f (by rw [checkCovered] at h; exact h))
  | .parseFromView _ f, h => .part (by simp [parts]) (err_exposed ih f (by rw [checkCovered] at h; exact h))
  | .phantom f, h => .part (by simp [parts]) (err_exposed ih f (by rw [checkCovered] at h; exact h))
  | .enforce f, h => .part (by simp [parts]) (err_exposed ih f (by rw [checkCovered] at h; exact h))
  | .map f _, h => .part (by simp [parts]) (err_exposed ih f (by rw [checkCovered] at h; exact h))
  | .where_ f _ _, h => .part (by simp [parts]) (err_exposed ih f (by rw [checkCovered] at h; exact h))
  | .permit f _, h => .part (by simp [parts]) (err_exposed ih f (by rw [checkCovered] at h; exact h))
  | .letFormat f _ g, h => by
    rw [checkCovered] at h
    rcases bind_err_unit h with h | h
    · exact .part (by simp [parts]) (err_exposed ih f h)
    · exact .part (by simp [parts]) (err_exposed ih g h)
  | .monadSeq f g, h => by
    rw [checkCovered] at h
    rcases bind_err_unit h with h | h
    · exact .part (by simp [parts]) (err_exposed ih f h)
    · exact .part (by simp [parts]) (err_exposed ih g h)
  | .union fs, h => by
    rw [checkCovered] at h
    obtain ⟨g, hg, he⟩ := err_exposedAll ih fs h
    exact .part (by simpa [parts] using hg) he
  | .unionNondet fs, h => by
    rw [checkCovered] at h
    obtain ⟨g, hg, he⟩ := err_exposedAll ih fs h
    exact .part (by simpa [parts] using hg) he
  | .tuple fs, h => by
    rw [checkCovered] at h
    obtain ⟨g, hg, he⟩ := err_exposedAll ih fs h
    exact .part (by simpa [parts] using hg) he
  | .sequence fs, h => by
    rw [checkCovered] at h
    obtain ⟨g, hg, he⟩ := err_exposedAll ih fs h
    exact .part (by simpa [parts] using hg) he
  | .fail, h => by rw [checkCovered] at h; cases h
  | .endOfInput, h => by rw [checkCovered] at h; cases h
  | .skipRemainder, h => by rw [checkCovered] at h; cases h
  | .pos, h => by rw [checkCovered] at h; cases h
  | .align _, h => by rw [checkCovered] at h; cases h
  | .liftedNone, h => by rw [checkCovered] at h; cases h
  | .peekNot _, h => by rw [checkCovered] at h; cases h
  | .compute _, h => by rw [checkCovered] at h; cases h
  | .apply _, h => by rw [checkCovered] at h; cases h
  | .captureBytes _ _, h => by rw [checkCovered] at h; cases h
  | .readArray _ _ _, h => by rw [checkCovered] at h; cases h
  | .reifyView _, h => by rw [checkCovered] at h; cases h
theorem err_exposedAll {m : Module} {st : Style} {fuel : Nat}
    (ih : ∀ k, k < fuel → ∀ f, checkCovered m st k f = .err () → Exposed m st f) :
    ∀ fs, checkAll m st fuel fs = .err () → ∃ g ∈ fs, Exposed m st g
  | [], h => by rw [checkAll] at h; cases h
  | f :: fs, h => by
    rw [checkAll] at h
    rcases bind_err_unit h with h | h
    · exact ⟨f, by simp, err_exposed ih f h⟩
    · obtain ⟨g, hg, he⟩ := err_exposedAll ih fs h
      exact ⟨g, by simp [hg], he⟩
theorem err_exposedBranches {m : Module} {st : Style} {fuel : Nat}
    (ih : ∀ k, k < fuel → ∀ f, checkCovered m st k f = .err () → Exposed m st f) :
    ∀ bs, checkBranches m st fuel bs = .err () → ∃ g ∈ bs.map (·.2), Exposed m st g
  | [], h => by rw [checkBranches] at h; cases h
  | (_, f) :: bs, h => by
    rw [checkBranches] at h
    rcases bind_err_unit h with h | h
    · exact ⟨f, by simp, err_exposed ih f h⟩
    · obtain ⟨g, hg, he⟩ := err_exposedBranches ih bs h
      exact ⟨g, by simp only [List.map_cons]; exact List.mem_cons_of_mem _ hg, he⟩
end

theorem covered_err (fuel : Nat) : ∀ f, checkCovered m st fuel f = .err () → Exposed m st f := by
  induction fuel using Nat.strongRecOn with
  | _ fuel ih => exact err_exposed ih

end Doodle.Flat
