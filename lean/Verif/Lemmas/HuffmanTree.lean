import Verif.Lemmas.Terminate

/-! Huffman codes compiled at run time: compiling ends, and so does decoding with the result. -/

namespace Doodle
namespace HuffmanTree

open Compiler

/-- the formats of a code word -/
def word (bits : List UInt8) : List Format := bits.map fun b => .byte (ByteSet.fromIter [b])

theorem word_ends {R : CRel} {env : Env} {bits : List UInt8} {next : Next} {ds : List Decoder}
    (h : CompilesFields R (word bits) next ds) : ∀ d ∈ ds, ∀ s c, Ends fun n => Decoder.parse env n d s c := by
  induction bits generalizing ds with
  | nil => cases h; intro d hd; cases hd
  | cons b bits ih =>
    cases h with
    | fcons h1 h2 =>
      cases h1
      intro d hd s c
      rcases List.mem_cons.1 hd with rfl | hd
      · refine .of_succ ?_
        simp only [Decoder.parse]
        refine .const ?_
        split
        · intro h; cases h
        · split <;> intro h <;> cases h
      · exact ih h2 d hd s c

theorem branch_ends {R : CRel} {env : Env} {p : List UInt8 × Nat} {next : Next} {d : Decoder}
    (h : Compiles R (Decoder.huffmanBranch p) next d) (s : Scope Decoder) (c : ReadCtxt) (hi : c.Inside) :
    Ends fun n => Decoder.parse env n d s c := by
  cases h with
  | map h1 =>
    cases h1 with
    | tuple h2 =>
      refine .of_succ ?_
      simp only [Decoder.parse]
      refine .bind (.of_succ ?_) fun w n hw => .panicky fun v hv => .ok _
      simp only [Decoder.parse]
      refine .bind ?_ fun w n hw => .ok _
      exact Decoder.foldItems_ends _ (fun d hd => ⟨fun c _ => word_ends (bits := p.1) h2 d hd s c,
        fun n c w hi h => Terminate.inside hi h⟩) _ hi

theorem all_ends {R : CRel} {env : Env} {codes : List (List UInt8 × Nat)} {next : Next} {ds : List Decoder}
    (h : CompilesAll R (codes.map Decoder.huffmanBranch) next ds) :
    ∀ d ∈ ds, ∀ s c, c.Inside → Ends fun n => Decoder.parse env n d s c := by
  induction codes generalizing ds with
  | nil => cases h; intro d hd; cases hd
  | cons p codes ih =>
    cases h with
    | acons h1 h2 =>
      intro d hd s c hi
      rcases List.mem_cons.1 hd with rfl | hd
      · exact branch_ends h1 s c hi
      · exact ih h2 d hd s c hi

theorem huffman_ends {R : CRel} {env : Env} {ls : List Nat} {vs : Option (List Nat)} {g : Format} {next : Next}
    {d : Decoder} (hg : Decoder.huffmanFormat ls vs = .ok g) (h : Compiles R g next d) :
    ∀ s c, c.Inside → Ends fun n => Decoder.parse env n d s c := by
  obtain ⟨codes, rfl, _⟩ := Consume.huffman_codes hg
  cases h with
  | union h1 _ =>
    intro s c hi
    refine .of_succ ?_
    simp only [Decoder.parse]
    split
    · exact .const (by intro h; cases h)
    · exact .panicky fun d hd =>
        .bind (all_ends h1 d (List.mem_of_getElem? (unwrap_eq_ok.1 hd)) s c hi) fun w n hw => .ok _

/-- the continuations met while building the prefix tree of a Huffman code -/
inductive Simple : Next → Prop
  | code (p : List UInt8 × Nat) : Simple (.cat (Decoder.huffmanBranch p) .empty)
  | word (bits : List UInt8) : Simple (.sequence (word bits) .empty)

theorem step_simple {m : Module} {n : Nat} {x : Next} (hx : Simple x) :
    ∃ s, Next.step m (n + 6) x = .ok s ∧ ∀ b ∈ s.branches, Simple b.2 := by
  cases hx with
  | code p =>
    obtain ⟨bits, k⟩ := p
    cases bits with
    | nil => exact ⟨_, rfl, fun b hb => by cases hb⟩
    | cons b bits =>
      refine ⟨_, rfl, fun x hx => ?_⟩
      simp only [Step.branch, List.mem_singleton] at hx
      subst hx
      exact .word bits
  | word bits =>
    cases bits with
    | nil => exact ⟨_, rfl, fun b hb => by cases hb⟩
    | cons b bits =>
      refine ⟨_, rfl, fun x hx => ?_⟩
      simp only [Step.branch, List.mem_singleton] at hx
      subst hx
      exact .word bits

/-- all continuations in the branches of a level satisfy `P` -/
def Within (P : Next → Prop) (bs : List (ByteSet × LevelBranch)) : Prop := ∀ b ∈ bs, ∀ e ∈ b.2, P e.2

theorem split_within {P : Next → Prop} {entry : Nat × Next} (he : P entry.2) :
    ∀ {bs : ByteSet} {l : List (ByteSet × LevelBranch)}, Within P l →
      Within P (Level.splitBranches entry bs l).1 ∧ Within P (Level.splitBranches entry bs l).2.2
  | _, [], _ => ⟨(fun b hb => nomatch hb), (fun b hb => nomatch hb)⟩
  | bs, (bs0, nexts) :: rest, h => by
    have hr : Within P rest := fun b hb => h b (List.mem_cons_of_mem _ hb)
    have h0 := h (bs0, nexts) List.mem_cons_self
    simp only [Level.splitBranches]
    split
    · have ih := split_within (P := P) he (bs := bs) hr
      refine ⟨fun b hb => ?_, ih.2⟩
      rcases List.mem_cons.1 hb with rfl | hb
      · exact h0
      · exact ih.1 b hb
    · have ih := split_within (P := P) he (bs := bs.difference (bs0.intersection bs)) hr
      refine ⟨fun b hb => ?_, ?_⟩
      · rcases List.mem_cons.1 hb with rfl | hb
        · intro e hm
          rcases List.mem_append.1 hm with hm | hm
          · exact h0 e hm
          · simp only [List.mem_singleton] at hm; subst hm; exact he
        · exact ih.1 b hb
      · split
        · exact ih.2
        · intro b hb
          rcases List.mem_cons.1 hb with rfl | hb
          · exact h0
          · exact ih.2 b hb

theorem merge_within {P : Next → Prop} {index : Nat} :
    ∀ {ss : List (ByteSet × Next)} {l : List (ByteSet × LevelBranch)}, Within P l → (∀ b ∈ ss, P b.2) →
      Within P (Level.mergeBranches index l ss)
  | [], _, hl, _ => hl
  | (bs, next) :: rest, l, hl, hs => by
    simp only [Level.mergeBranches]
    refine merge_within ?_ fun b hb => hs b (List.mem_cons_of_mem _ hb)
    have he : P next := hs (bs, next) List.mem_cons_self
    have hsp := split_within (P := P) (entry := (index, next)) he (bs := bs) hl
    intro b hb
    unfold Level.mergeBranch at hb
    simp only [List.mem_append] at hb
    rcases hb with (hb | hb) | hb
    · exact hsp.1 b hb
    · split at hb
      · cases hb
      · simp only [List.mem_singleton] at hb
        subst hb
        intro e hm
        simp only [List.mem_singleton] at hm
        subst hm
        exact he
    · exact hsp.2 b hb

theorem mergeStep_within {P : Next → Prop} {l l' : Level} {i : Nat} {s : Step} (hl : Within P l.branches)
    (hs : ∀ b ∈ s.branches, P b.2) (h : l.mergeStep i s = some l') : Within P l'.branches := by
  unfold Level.mergeStep at h
  split at h
  · split at h
    · cases h
    · cases h; exact merge_within hl hs
  · cases h; exact merge_within hl hs

theorem mergeAll_simple {m : Module} {n : Nat} : ∀ {l : Level} {es : LevelBranch}, Within Simple l.branches →
    (∀ e ∈ es, Simple e.2) → ∃ r, Level.mergeAll m (n + 6) l es = .ok r ∧ ∀ l', r = some l' → Within Simple l'.branches
  | l, [], hl, _ => ⟨some l, rfl, fun l' h => by cases h; exact hl⟩
  | l, (i, next) :: rest, hl, he => by
    obtain ⟨s, hs, hb⟩ := step_simple (m := m) (n := n) (he (i, next) List.mem_cons_self)
    simp only [Level.mergeAll]
    rw [hs]
    simp only [Outcome.bind_ok]
    cases hms : l.mergeStep i s with
    | none => exact ⟨none, rfl, fun l' h => by cases h⟩
    | some l1 => exact mergeAll_simple (mergeStep_within hl hb hms) fun e hm => he e (List.mem_cons_of_mem _ hm)

theorem growBranches_ne {grow : Nat → LevelBranch → Run (Option MatchTree)} :
    ∀ {bs : List (ByteSet × LevelBranch)} {pos : Nat}, (∀ pos, ∀ b ∈ bs, grow pos b.2 ≠ .fuel) →
      Level.growBranches grow pos bs ≠ .fuel
  | [], _, _ => by intro h; cases h
  | (bs, nexts) :: rest, pos, hg => by
    simp only [Level.growBranches]
    have h0 := hg pos (bs, nexts) List.mem_cons_self
    cases h1 : grow pos nexts with
    | fuel => exact absurd h1 h0
    | panic => intro h; cases h
    | err e => cases e
    | ok t =>
      simp only [Outcome.bind_ok]
      cases t with
      | none => intro h; cases h
      | some t =>
        have ih := growBranches_ne (grow := grow) (bs := rest) (pos := pos + 1)
          fun pos b hb => hg pos b (List.mem_cons_of_mem _ hb)
        cases h2 : Level.growBranches grow (pos + 1) rest with
        | fuel => exact absurd h2 ih
        | panic => intro h; cases h
        | err e => cases e
        | ok ts => simp only [Outcome.bind_ok]; cases ts <;> intro h <;> cases h

theorem mem_insertByIx {x y : Nat × Next} {l : LevelBranch} : y ∈ Level.insertByIx x l ↔ y = x ∨ y ∈ l := by
  induction l with
  | nil => simp [Level.insertByIx]
  | cons z l ih =>
    simp only [Level.insertByIx]
    split
    · simp
    · simp only [List.mem_cons, ih]
      constructor
      · rintro (h | h | h) <;> simp [h]
      · rintro (h | h | h) <;> simp [h]

theorem mem_sortByIx {y : Nat × Next} {l : LevelBranch} : y ∈ Level.sortByIx l ↔ y ∈ l := by
  induction l with
  | nil => simp [Level.sortByIx]
  | cons x l ih => simp [Level.sortByIx, mem_insertByIx, ih]

theorem grow_simple {m : Module} {ord : HashOrder} (ho : ord.Valid) {n : Nat} :
    ∀ {depth : Nat} {path : List Nat} {es : LevelBranch}, (∀ e ∈ es, Simple e.2) →
      Level.grow m ord (n + 6) depth path es ≠ .fuel := by
  intro depth
  induction depth with
  | zero =>
    intro path es _
    unfold Level.grow
    split <;> intro h <;> cases h
  | succ depth ih =>
    intro path es he
    unfold Level.grow
    split
    · intro h; cases h
    · obtain ⟨r, hr, hw⟩ := mergeAll_simple (m := m) (n := n) (l := Level.reject)
        (es := Level.sortByIx (ord path es)) (fun b hb => by cases hb)
        (fun e hm => he e ((ho path es e).1 (mem_sortByIx.1 hm)))
      simp only [hr, Outcome.bind_ok]
      cases r with
      | none => intro h; cases h
      | some l =>
        have := growBranches_ne (grow := fun pos nexts => Level.grow m ord (n + 6) depth (pos :: path) nexts)
          (bs := l.branches) (pos := 0) fun pos b hb => ih (fun e hm => hw l rfl b hb e hm)
        dsimp only
        cases hg : Level.growBranches (fun pos nexts => Level.grow m ord (n + 6) depth (pos :: path) nexts) 0
          l.branches with
        | fuel => exact absurd hg this
        | panic => intro h; cases h
        | err e => cases e
        | ok ts => cases ts <;> intro h <;> cases h

theorem initial_simple (codes : List (List UInt8 × Nat)) :
    ∀ i, ∀ e ∈ MatchTree.initial .empty i (codes.map Decoder.huffmanBranch), Simple e.2 := by
  induction codes with
  | nil => intro i e h; cases h
  | cons p codes ih =>
    intro i e h
    simp only [List.map_cons, MatchTree.initial] at h
    rcases List.mem_cons.1 h with rfl | h
    · exact .code p
    · exact ih _ e h

theorem fields_ok [DecidableEq Next] {m : Module} {o : BuildOpts} (bits : List UInt8) (next : Next) (st : CompSt) :
    ∃ ds, compileFields m o (word bits) next st = .ok (ds, st) := by
  induction bits with
  | nil => exact ⟨[], by simp [word, compileFields]⟩
  | cons b bits ih =>
    obtain ⟨ds, hd⟩ := ih
    refine ⟨.byte (ByteSet.fromIter [b]) :: ds, ?_⟩
    simp only [word, List.map_cons, compileFields, compileFormat, Outcome.bind_ok]
    unfold word at hd
    rw [hd]
    rfl

theorem all_ok [DecidableEq Next] {m : Module} {o : BuildOpts} (codes : List (List UInt8 × Nat)) (next : Next)
    (st : CompSt) : ∃ ds, compileAll m o (codes.map Decoder.huffmanBranch) next st = .ok (ds, st) := by
  induction codes with
  | nil => exact ⟨[], by simp [compileAll]⟩
  | cons p codes ih =>
    obtain ⟨ds, hd⟩ := ih
    obtain ⟨es, he⟩ := fields_ok (m := m) (o := o) p.1 next st
    unfold word at he
    refine ⟨.map (.tuple es) (.lambda "_" (.lit .b16 (Fin.ofNat _ p.2))) :: ds, ?_⟩
    · simp only [List.map_cons, compileAll, Decoder.huffmanBranch, compileFormat, he, Outcome.bind_ok]
      rw [hd]
      rfl

/-- Compiling the format of a Huffman code ends. -/
theorem compile_ends [DecidableEq Next] {o : BuildOpts} (ho : o.ord.Valid) (hf : 6 ≤ o.fuel) {ls : List Nat}
    {vs : Option (List Nat)} {g : Format} (hg : Decoder.huffmanFormat ls vs = .ok g) :
    compileOne o g ≠ .fuel := by
  obtain ⟨codes, rfl, _⟩ := Consume.huffman_codes hg
  obtain ⟨ds, hd⟩ := all_ok (m := .empty) (o := o) codes .empty new
  have hb : MatchTree.build .empty o.ord o.fuel (codes.map Decoder.huffmanBranch) .empty ≠ .fuel := by
    unfold MatchTree.build
    rw [show o.fuel = (o.fuel - 6) + 6 by omega]
    exact grow_simple ho (initial_simple codes 0)
  unfold compileOne
  simp only [compileFormat, hd, Outcome.bind_ok, buildOrErr]
  cases ht : MatchTree.build .empty o.ord o.fuel (codes.map Decoder.huffmanBranch) .empty with
  | fuel => exact absurd ht hb
  | err e => cases e
  | panic => simp [Outcome.lift]
  | ok t => cases t <;> simp [Outcome.lift, Outcome.ofOption]

end HuffmanTree
end Doodle
