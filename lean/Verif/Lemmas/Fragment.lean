import Verif.Spec.Fragment

/-! Lemmas on fragments. -/

namespace Doodle.Out

namespace Fragment

theorem textAll_eq : ∀ fs : List Fragment, textAll fs = (fs.map text).flatten
  | [] => rfl
  | f :: fs => by simp [textAll, textAll_eq fs]

theorem textJoined_eq (sep : List Char) : ∀ fs : List Fragment,
    textJoined sep fs = between sep (fs.map text)
  | [] => rfl
  | [f] => by simp [textJoined, textRest, between]
  | f :: g :: fs => by
    have ih := textJoined_eq sep (g :: fs)
    simp only [textJoined, textRest, List.map_cons, between] at ih ⊢
    rw [← ih]
    simp

theorem between_nil (ts : List (List Char)) : between [] ts = ts.flatten := by
  match ts with
  | [] => rfl
  | [t] => simp [between]
  | t :: u :: ts =>
    have ih := between_nil (u :: ts)
    simp only [between, ih, List.append_nil, List.flatten_cons]

theorem textAll_append (a b : List Fragment) : textAll (a ++ b) = textAll a ++ textAll b := by
  simp [textAll_eq]

theorem isEmpty_iff {f : Fragment} : f.isEmpty = true ↔ f = .empty := by
  cases f <;> simp [isEmpty]

theorem text_concat (a b : Fragment) : (a.concat b).text = a.text ++ b.text := by
  unfold concat
  split
  · rename_i h; rw [isEmpty_iff.1 h]; simp [text]
  · split
    · rename_i h; rw [isEmpty_iff.1 h]; simp [text]
    · simp [text]

theorem fitsInline_concat (a b : Fragment) :
    (a.concat b).fitsInline = (a.fitsInline && b.fitsInline) := by
  unfold concat
  split
  · rename_i h; rw [isEmpty_iff.1 h]; simp [fitsInline]
  · split
    · rename_i h; rw [isEmpty_iff.1 h]; simp [fitsInline]
    · simp [fitsInline]

mutual
theorem text_vacuous : ∀ f : Fragment, f.isVacuous = true → f.text = []
  | .empty, _ => rfl
  | .symbol _, h => by simp [isVacuous] at h
  | .char _, h => by simp [isVacuous] at h
  | .string s, h => by simpa [isVacuous, text] using h
  | .atom _, h => by simp [isVacuous] at h
  | .group f, h => by simp only [isVacuous] at h; simpa [text] using text_vacuous f h
  | .cat a b, h => by
    simp only [isVacuous, Bool.and_eq_true] at h
    simp [text, text_vacuous a h.1, text_vacuous b h.2]
  | .plain items, h => by
    simp only [isVacuous] at h
    simpa [text, textAll_eq] using text_allVacuous items h
  | .joined sep items, h => by
    simp only [isVacuous] at h
    split at h
    · rename_i hl
      have := text_allVacuous items h
      match items, hl with
      | [], _ => rfl
      | [f], _ => simpa [text, textJoined, textRest] using this
    · simp only [Bool.and_eq_true] at h
      rw [text, text_vacuous sep h.1, textJoined_eq, between_nil]
      exact List.flatten_eq_nil_iff.2 (by simpa using text_allVacuous items h.2)
theorem text_allVacuous : ∀ fs : List Fragment, allVacuous fs = true →
    ∀ f ∈ fs, f.text = []
  | [], _ => by simp
  | f :: fs, h => by
    simp only [allVacuous, Bool.and_eq_true] at h
    intro g hg
    rcases List.mem_cons.1 hg with hg | hg
    · rw [hg]; exact text_vacuous f h.1
    · exact text_allVacuous fs h.2 g hg
end

theorem symbol_text_ne (s : Symbol) : s.text ≠ [] := by cases s <;> simp [Symbol.text]

mutual
theorem vacuous_of_text : ∀ f : Fragment, f.Atoms (· ≠ []) → f.text = [] → f.isVacuous = true
  | .empty, _, _ => rfl
  | .symbol s, _, h => absurd h (by simpa [text] using symbol_text_ne s)
  | .char _, _, h => by simp [text] at h
  | .string s, _, h => by simpa [isVacuous, text] using h
  | .atom s, ha, h => absurd h (by simpa [text, Atoms] using ha)
  | .group f, ha, h => by
    simp only [text, Atoms] at h ha; simpa [isVacuous] using vacuous_of_text f ha h
  | .cat a b, ha, h => by
    simp only [text, Atoms, List.append_eq_nil_iff] at h ha
    simp [isVacuous, vacuous_of_text a ha.1 h.1, vacuous_of_text b ha.2 h.2]
  | .plain items, ha, h => by
    simp only [text, Atoms] at h ha
    simpa [isVacuous] using allVacuous_of_text items ha (by
      rw [textAll_eq] at h; simpa using List.flatten_eq_nil_iff.1 h)
  | .joined sep items, ha, h => by
    simp only [text, Atoms] at h ha
    have hs := vacuous_of_text sep ha.1
    have hi := allVacuous_of_text items ha.2
    match items with
    | [] => simp [isVacuous, allVacuous]
    | [f] =>
      simp only [textJoined, textRest, List.append_nil] at h
      have := hi (by simpa using h)
      simpa [isVacuous] using this
    | f :: g :: fs =>
      have hall : ∀ ts : List Fragment, textRest sep.text ts = [] →
          (∀ x ∈ ts, x.text = []) := by
        intro ts
        induction ts with
        | nil => simp
        | cons t ts ih =>
          intro ht
          simp only [textRest, List.append_eq_nil_iff] at ht
          intro x hx
          rcases List.mem_cons.1 hx with rfl | hx
          · exact ht.1.2
          · exact ih ht.2 x hx
      simp only [textJoined, List.append_eq_nil_iff] at h
      have h2 := h.2
      simp only [textRest, List.append_eq_nil_iff] at h2
      have := hi (by
        intro x hx
        rcases List.mem_cons.1 hx with rfl | hx
        · exact h.1
        · exact hall _ h.2 x hx)
      simp [isVacuous, hs h2.1.1, this]
theorem allVacuous_of_text : ∀ fs : List Fragment, AtomsAll (· ≠ []) fs →
    (∀ f ∈ fs, f.text = []) → allVacuous fs = true
  | [], _, _ => rfl
  | f :: fs, ha, h => by
    simp only [AtomsAll] at ha
    simp only [allVacuous, Bool.and_eq_true]
    exact ⟨vacuous_of_text f ha.1 (h f (by simp)),
      allVacuous_of_text fs ha.2 (fun g hg => h g (by simp [hg]))⟩
end

theorem text_seq (items : List Fragment) (sep : Option Fragment) :
    (seq items sep).text
      = between ((sep.map text).getD []) (items.map text) := by
  unfold seq
  match items with
  | [] => simp [text, between]
  | [f] => simp [text, textAll, between]
  | f :: g :: fs =>
    have hp : (Fragment.plain (f :: g :: fs)).text = between [] ((f :: g :: fs).map text) := by
      rw [text, textAll_eq, between_nil]
    simp only [List.isEmpty_cons, List.length_cons]
    rw [if_neg (by simp), if_neg (by simp)]
    match sep with
    | none => simpa using hp
    | some s =>
      simp only
      split
      · rename_i hv
        rw [hp]; simp [text_vacuous s hv]
      · simp [text, textJoined_eq]

theorem text_seq_none (items : List Fragment) : (seq items none).text = (items.map text).flatten := by
  rw [text_seq]; exact between_nil _

mutual
theorem inline_sound : ∀ f : Fragment, f.fitsInline = true → f.Atoms ('\n' ∉ ·) →
    '\n' ∉ f.text ∧ f.NoSymbol
  | .empty, _, _ => by simp [text, NoSymbol]
  | .symbol _, h, _ => by simp [fitsInline] at h
  | .char c, h, _ => by
    simp only [fitsInline, bne_iff_ne, ne_eq] at h
    simp [text, NoSymbol, Ne.symm h]
  | .string s, h, _ => by simpa [fitsInline, text, NoSymbol] using h
  | .atom s, _, ha => by simpa [text, NoSymbol, Atoms] using ha
  | .group f, h, ha => by
    simp only [fitsInline, Atoms] at h ha; simpa [text, NoSymbol] using inline_sound f h ha
  | .cat a b, h, ha => by
    simp only [fitsInline, Atoms, Bool.and_eq_true] at h ha
    have h1 := inline_sound a h.1 ha.1
    have h2 := inline_sound b h.2 ha.2
    simp [text, NoSymbol, h1, h2]
  | .plain items, h, ha => by
    simp only [fitsInline, Atoms] at h ha
    have h1 := inline_sound_all items h ha
    refine ⟨?_, by simpa [NoSymbol] using h1.2⟩
    rw [text, textAll_eq]
    simpa using h1.1
  | .joined sep items, h, ha => by
    simp only [fitsInline, Atoms, Bool.and_eq_true, Bool.or_eq_true, List.isEmpty_iff] at h ha
    have h1 := inline_sound_all items h.2 ha.2
    rcases h.1 with rfl | hs
    · simp [text, textJoined, NoSymbol, NoSymbolAll]
    · have h0 := inline_sound sep hs ha.1
      refine ⟨?_, by simpa [NoSymbol] using ⟨fun _ => h0.2, h1.2⟩⟩
      have hr : ∀ ts : List Fragment, (∀ f ∈ ts, '\n' ∉ f.text) → '\n' ∉ textRest sep.text ts := by
        intro ts
        induction ts with
        | nil => simp [textRest]
        | cons t ts ih =>
          intro ht
          simp only [textRest, List.mem_append, not_or]
          exact ⟨⟨h0.1, ht t (by simp)⟩, ih (fun f hf => ht f (by simp [hf]))⟩
      match items with
      | [] => simp [text, textJoined]
      | t :: ts =>
        simp only [text, textJoined, List.mem_append, not_or]
        exact ⟨h1.1 t (by simp), hr ts (fun f hf => h1.1 f (by simp [hf]))⟩
theorem inline_sound_all : ∀ fs : List Fragment, allInline fs = true → AtomsAll ('\n' ∉ ·) fs →
    (∀ f ∈ fs, '\n' ∉ f.text) ∧ NoSymbolAll fs
  | [], _, _ => by simp [NoSymbolAll]
  | f :: fs, h, ha => by
    simp only [allInline, AtomsAll, Bool.and_eq_true] at h ha
    have h1 := inline_sound f h.1 ha.1
    have h2 := inline_sound_all fs h.2 ha.2
    refine ⟨?_, by simp [NoSymbolAll, h1.2, h2.2]⟩
    intro g hg
    rcases List.mem_cons.1 hg with rfl | hg
    · exact h1.1
    · exact h2.1 g hg
end

/-- what a single line may be: no newline, or (when final) one at the very end -/
def Single (final : Bool) (t : List Char) : Prop :=
  '\n' ∉ t ∨ (final = true ∧ ∃ line, '\n' ∉ line ∧ t = line ++ ['\n'])

theorem Single.of_not {final : Bool} {t : List Char} (h : '\n' ∉ t) : Single final t := .inl h

theorem Single.not {t : List Char} (h : Single false t) : '\n' ∉ t := by
  rcases h with h | ⟨h, _⟩
  · exact h
  · cases h

theorem Single.append {final : Bool} {s t : List Char} (hs : '\n' ∉ s) (ht : Single final t) :
    Single final (s ++ t) := by
  rcases ht with h | ⟨hf, l, hl, rfl⟩
  · exact .inl (by simp [hs, h])
  · exact .inr ⟨hf, s ++ l, by simp [hs, hl], by simp⟩

theorem symbol_no_newline (s : Symbol) : '\n' ∉ s.text := by cases s <;> decide

mutual
theorem single_sound : ∀ (f : Fragment) (final : Bool), f.isSingleLine final = true →
    f.Atoms ('\n' ∉ ·) → Single final f.text
  | .empty, _, _, _ => .inl (by simp [text])
  | .symbol s, _, _, _ => .inl (by simpa [text] using symbol_no_newline s)
  | .char c, final, h, _ => by
    simp only [isSingleLine] at h
    split at h
    · rename_i hc; subst hc
      exact .inr ⟨h, [], by simp, by simp [text]⟩
    · rename_i hc
      exact .inl (by simp [text, Ne.symm hc])
  | .string s, final, h, _ => by
    simp only [isSingleLine] at h
    have hs := List.takeWhile_append_dropWhile (p := fun c => decide (c ≠ '\n')) (l := s)
    have ht : '\n' ∉ s.takeWhile (fun c => decide (c ≠ '\n')) := by
      intro hm
      have := List.all_takeWhile (p := fun c => decide (c ≠ '\n')) (l := s)
      have := List.all_eq_true.1 this _ hm
      simp at this
    generalize hd : s.dropWhile (fun c => decide (c ≠ '\n')) = d at h hs
    match d, h with
    | [], _ => exact .inl (by rw [text, ← hs]; simpa using ht)
    | [c], h =>
      have hc : c = '\n' := by
        have := List.head?_dropWhile_not (p := fun c => decide (c ≠ '\n')) s
        rw [hd] at this
        simpa using this
      subst hc
      exact .inr ⟨h, _, ht, by rw [text]; exact hs.symm⟩
    | _ :: _ :: _, h => exact absurd h (by simp)
  | .atom s, _, _, ha => .inl (by simpa [text, Atoms] using ha)
  | .group f, final, h, ha => by
    simp only [isSingleLine, Atoms] at h ha; simpa [text] using single_sound f final h ha
  | .cat a b, final, h, ha => by
    simp only [isSingleLine, Atoms, Bool.and_eq_true] at h ha
    rw [text]
    exact .append (single_sound a false h.1 ha.1).not (single_sound b final h.2 ha.2)
  | .plain items, final, h, ha => by
    simp only [isSingleLine, Atoms] at h ha
    have := single_sound_rest items final [] (by simp) h ha
    have he : textRest [] items = textAll items := by
      clear this h ha
      induction items with
      | nil => rfl
      | cons t ts ih => simp [textRest, textAll, ih]
    rw [text, ← he]
    exact this
  | .joined sep items, final, h, ha => by
    simp only [isSingleLine, Atoms, Bool.and_eq_true, Bool.or_eq_true, List.isEmpty_iff] at h ha
    match items with
    | [] => exact .inl (by simp [text, textJoined])
    | t :: ts =>
      have hsep : '\n' ∉ sep.text := by
        rcases h.1 with h1 | h1
        · cases h1
        · exact (single_sound sep false h1 ha.1).not
      have hall := h.2
      have haa := ha.2
      simp only [allSingle, AtomsAll, Bool.and_eq_true] at hall haa
      rw [text, textJoined]
      have h1 := single_sound t _ hall.1 haa.1
      cases ts with
      | nil => simpa [textRest] using h1
      | cons u us =>
        simp only [List.isEmpty_cons, Bool.and_false] at h1
        exact .append h1.not (single_sound_rest (u :: us) final sep.text hsep hall.2 haa.2)
theorem single_sound_rest : ∀ (fs : List Fragment) (final : Bool) (sep : List Char), '\n' ∉ sep →
    allSingle final fs = true → AtomsAll ('\n' ∉ ·) fs → Single final (textRest sep fs)
  | [], _, _, _, _, _ => .inl (by simp [textRest])
  | f :: fs, final, sep, hsep, h, ha => by
    simp only [allSingle, AtomsAll, Bool.and_eq_true] at h ha
    have h1 := single_sound f _ h.1 ha.1
    have h2 := single_sound_rest fs final sep hsep h.2 ha.2
    rw [textRest]
    cases fs with
    | nil =>
      simp only [List.isEmpty_nil, Bool.and_true] at h1
      simpa [textRest] using Single.append hsep h1
    | cons g gs =>
      simp only [List.isEmpty_cons, Bool.and_false] at h1
      exact .append (by simp [hsep, h1.not]) h2
end

end Fragment

namespace Builder

/-- what a builder stands for -/
def content (b : Builder) : List Char := (b.frozen.map Fragment.text).flatten ++ b.active.text

theorem content_renew (b : Builder) : b.renew.content = b.content := by
  unfold renew content
  split
  · rename_i h; rw [Fragment.isEmpty_iff.1 h]
  · simp [Fragment.text]

theorem content_write (b : Builder) (f : Fragment) : (b.write f).content = b.content ++ f.text := by
  simp [content, write, Fragment.text_concat]

theorem content_push (b : Builder) (f : Fragment) : (b.push f).content = b.content ++ f.text := by
  unfold push content
  split
  · rename_i h; rw [Fragment.isEmpty_iff.1 h]; simp [Fragment.text]
  · split
    · rename_i h; rw [Fragment.isEmpty_iff.1 h]; simp [Fragment.text]
    · simp [Fragment.text]

theorem renew_active (b : Builder) : b.renew.active = .empty := by
  unfold renew; split <;> rfl

theorem text_finalize (b : Builder) : b.finalize.text = b.content := by
  rw [← content_renew]
  unfold finalize
  rw [Fragment.text_seq_none, content, renew_active]
  simp [Fragment.text]

end Builder

theorem Step.content_run : ∀ (ss : List Step) (b : Builder),
    (Step.run b ss).content = b.content ++ (ss.map Step.added).flatten
  | [], b => by simp [Step.run]
  | .write f :: ss, b => by
    simp [Step.run, Step.content_run ss, Builder.content_write, Step.added]
  | .renew :: ss, b => by
    simp [Step.run, Step.content_run ss, Builder.content_renew, Step.added]
  | .push f :: ss, b => by
    simp [Step.run, Step.content_run ss, Builder.content_push, Step.added]

end Doodle.Out
